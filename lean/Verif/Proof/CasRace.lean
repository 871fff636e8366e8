import Verif.Model.CasRace
import Verif.Proof.TreeLeaf
import Verif.Proof.StoreSim
import Verif.Proof.NodeVersion
import Verif.Proof.Internode
set_option linter.unusedSimpArgs false
set_option linter.unusedVariables false
/-!
# The permutation and the lock holder in the machine of lock-free inserts
-/
namespace Verif.Cas
open Verif.Internode (upd)
open Verif.Perm (size get back insertFromBack swapFreeSlots setSize params24)
open Verif.Tree (PermOK permOK_insert permOK_setSize)
open Verif.Store (permOK_swap)
open Verif.Internode (upd_same upd_ne)

/-- The frozen snapshot and the split point, while the permutation is frozen. -/
def HPc.froz : HPc → Option (BitVec 128 × Nat)
  | .take _ raw sp _ => some (raw, sp)
  | .clear _ raw sp _ => some (raw, sp)
  | .unfreeze _ raw sp => some (raw, sp)
  | _ => none

/-- What the holder's private data satisfies. -/
def HPc.Ok : HPc → NV.W → Prop
  | .free, _ => True
  | .locked lv, w => NV.isLocked w = true ∧ NV.isDirty w = true
  | .marked lv, w => NV.isLocked w = true ∧ NV.isDirty w = true ∧ NV.isSplitting w = true
  | .freezing lv raw, w => NV.isLocked w = true ∧ NV.isDirty w = true ∧ NV.isSplitting w = true ∧ PermOK raw
  | .take lv raw sp j, w => NV.isLocked w = true ∧ NV.isDirty w = true ∧ sp ≤ j ∧ j ≤ size 5 raw
  | .clear lv raw sp j, w => NV.isLocked w = true ∧ NV.isDirty w = true ∧ sp ≤ j ∧ j < size 5 raw
  | .unfreeze lv raw sp, w => NV.isLocked w = true ∧ NV.isDirty w = true
  | .unlock lv, w => NV.isLocked w = true ∧ NV.isDirty w = true
  | .iload lv o, w => NV.isLocked w = true ∧ NV.isDirty w = true
  | .ikey lv o p pos, w => NV.isLocked w = true ∧ NV.isDirty w = true ∧ PermOK p ∧ pos ≤ size 5 p ∧ size 5 p < 24
  | .iptr lv o p pos, w => NV.isLocked w = true ∧ NV.isDirty w = true ∧ PermOK p ∧ pos ≤ size 5 p ∧ size 5 p < 24
  | .iklx lv o p pos, w => NV.isLocked w = true ∧ NV.isDirty w = true ∧ PermOK p ∧ pos ≤ size 5 p ∧ size 5 p < 24
  | .iperm lv p pos, w => NV.isLocked w = true ∧ NV.isDirty w = true ∧ PermOK p ∧ pos ≤ size 5 p ∧ size 5 p < 24
  | .panicked, _ => False

/-- What an attempt's data satisfies. -/
structure Try.Ok (y : Try) : Prop where
  perm : PermOK y.p
  pos : y.pos ≤ size 5 y.p
  off : y.off < 24 - size 5 y.p

/-- The attempt of a thread that has chosen a slot. -/
def Pc.try? : Pc → Option Try
  | .claim y | .chk1 y | .key y | .klx y | .chk2 y | .install y | .verify y _ | .chk3 y _ | .publish y _
  | .undo y _ | .release y => some y
  | _ => none

/-- Invariant of the permutation, the lock holder and the threads' private data. -/
structure Base (s : St) : Prop where
  frozen : ∀ raw sp, s.hold.froz = some (raw, sp) →
    s.perm = Freeze.freezeRaw raw ∧ PermOK raw ∧ 0 < sp ∧ sp < size 5 raw
  thawed : s.hold.froz = none → PermOK s.perm
  hold : s.hold.Ok s.word
  search : ∀ i o v p, s.th i = .search o v p → PermOK p
  tries : ∀ i y, (s.th i).try? = some y → y.Ok

theorem not_frozen {p : BitVec 128} (h : PermOK p) : Freeze.isFrozen p = false := by
  cases hb : Freeze.isFrozen p with
  | false => rfl
  | true =>
    have := (Freeze.isFrozen_iff p).mp hb
    have := h.lt 23 (by omega)
    omega

theorem freeze_frozen (raw : BitVec 128) : Freeze.isFrozen (Freeze.freezeRaw raw) = true := (Freeze.C17_freeze raw).1

theorem Base.not_frozen {s : St} (h : Base s) : Freeze.isFrozen s.perm = false ↔ s.hold.froz = none := by
  constructor
  · intro hf
    cases hz : s.hold.froz with
    | none => rfl
    | some x => rw [(h.frozen x.1 x.2 hz).1, freeze_frozen] at hf; cases hf
  · intro hz; exact Cas.not_frozen (h.thawed hz)

theorem Try.Ok.newPerm {y : Try} (h : y.Ok) : PermOK y.newPerm := by
  have := h.off
  unfold Try.newPerm
  split
  · exact permOK_insert h.perm (by omega) h.pos
  · refine permOK_insert (permOK_swap h.perm (by omega) (by omega)) ?_ ?_
    · rw [Verif.Perm.swapFreeSlots_eq_exchange, Verif.Perm.size_exchange params24]; omega
    · rw [Verif.Perm.swapFreeSlots_eq_exchange, Verif.Perm.size_exchange params24]; exact h.pos

theorem locked_bits {w : NV.W} (h : NV.lockable w = true) :
    NV.isLocked (NV.lockedOf w) = true ∧ NV.isDirty (NV.lockedOf w) = true := by
  rw [NV.lockable_iff] at h
  have h0 := of_decide_eq_true h
  have e := NV.of_lockedOf h0
  have hs := NV.stableOk_iff (NV.lockedOf w)
  refine ⟨by rw [NV.isLocked_iff, e]; simp, ?_⟩
  rw [e] at hs
  have : NV.isDirty (NV.lockedOf w) = !NV.stableOk (NV.lockedOf w) := rfl
  rw [this, hs]; simp

theorem dirty_split {w : NV.W} (hl : NV.isLocked w = true) (hd : NV.isDirty w = true) :
    NV.isLocked (w ||| NV.SPLITTING) = true ∧ NV.isDirty (w ||| NV.SPLITTING) = true ∧
      NV.isSplitting (w ||| NV.SPLITTING) = true := by
  have hw : (NV.F.of w).w < 2 ^ 3 := (NV.F.of_ok w).w
  have e : (NV.F.of (w ||| NV.SPLITTING)).w = (NV.F.of w).w ||| 4 := by rw [NV.F.of_or, NV.of_SPLITTING]; rfl
  rw [NV.isLocked_iff] at hl
  have hl := of_decide_eq_true hl
  have key : ∀ x, x < 8 → x % 2 = 1 → (x ||| 4) % 2 = 1 ∧ 4 ≤ (x ||| 4) := by decide
  have := key _ hw hl
  refine ⟨by rw [NV.isLocked_iff, e]; exact decide_eq_true this.1, ?_, ?_⟩
  · have h2 : NV.isDirty (w ||| NV.SPLITTING) = !NV.stableOk (w ||| NV.SPLITTING) := rfl
    rw [h2, NV.stableOk_iff, e, decide_eq_false (by omega)]; rfl
  · show ((w ||| NV.SPLITTING) &&& NV.SPLITTING != 0#32) = true
    rw [NV.isSplitting_iff, e]; exact decide_eq_true this.2

theorem not_lockable {w : NV.W} (h : NV.isDirty w = true) : NV.lockable w = false := by
  have h2 : NV.isDirty w = !NV.stableOk w := rfl
  rw [h2, NV.stableOk_iff] at h
  rw [NV.lockable_iff]
  have : ¬ (NV.F.of w).w ≤ 1 := by simpa using h
  exact decide_eq_false (by omega)

/-- Somebody holds the lock exactly when this is so. -/
theorem Base.free_of_clean {s : St} (h : Base s) (hw : NV.isDirty s.word = false) : s.hold = .free := by
  have := h.hold
  cases e : s.hold <;> rw [e] at this <;> simp only [HPc.Ok, hw] at this
  all_goals first | rfl | (exact absurd this.2 (by simp))

/-- Only the lock-free inserts moved. -/
theorem Base.of_th {s s' : St} (h : Base s) (hp : s'.perm = s.perm) (hw : s'.word = s.word) (hh : s'.hold = s.hold)
    {i : Nat} {c : Pc} (ht : s'.th = upd s.th i c)
    (hs : ∀ o v p, c = .search o v p → PermOK p) (hy : ∀ y, c.try? = some y → y.Ok) : Base s' := by
  refine ⟨?_, ?_, ?_, ?_, ?_⟩
  · rw [hh, hp]; exact h.frozen
  · rw [hh, hp]; exact h.thawed
  · rw [hh, hw]; exact h.hold
  · intro j o v p e
    rw [ht] at e
    by_cases hj : j = i
    · subst hj; rw [upd_same] at e; exact hs _ _ _ e
    · rw [upd_ne _ _ _ hj] at e; exact h.search _ _ _ _ e
  · intro j y e
    rw [ht] at e
    by_cases hj : j = i
    · subst hj; rw [upd_same] at e; exact hy _ e
    · rw [upd_ne _ _ _ hj] at e; exact h.tries _ _ e

theorem go_th (s : St) (i : Nat) (c : Pc) (j : Nat) : (s.go i c).th j = if j = i then c else s.th j := rfl

theorem noTry {c : Pc} (h : c.try? = none) : ∀ y, c.try? = some y → y.Ok := by
  intro y e; rw [h] at e; cases e

theorem Base.tstep {s : St} (h : Base s) (i pos off : Nat) : Base (tstep s i pos off) := by
  have ht := h.tries i
  have hs := h.search i
  unfold Cas.tstep
  split
  case h_1 e => exact h
  case h_2 o e => exact h.of_th rfl rfl rfl rfl (by intro _ _ _ e; cases e) (noTry rfl)
  case h_3 o v e => split <;> exact h.of_th rfl rfl rfl rfl (by intro _ _ _ e; cases e) (noTry rfl)
  case h_4 o v e =>
    split
    · exact h.of_th rfl rfl rfl rfl (by intro _ _ _ e; cases e) (noTry rfl)
    · rename_i hf
      refine h.of_th rfl rfl rfl rfl ?_ (noTry rfl)
      intro _ _ _ e'; cases e'
      exact h.thawed (h.not_frozen.mp (by simpa using hf))
  case h_5 o v p e =>
    split
    · rename_i hc
      refine h.of_th rfl rfl rfl rfl (by intro _ _ _ e; cases e) ?_
      intro y e'; cases e'
      exact ⟨hs _ _ _ e, hc.1, hc.2⟩
    · exact h.of_th rfl rfl rfl rfl (by intro _ _ _ e; cases e) (noTry rfl)
  case h_14 y t e =>
    have hy := ht y (by rw [e]; rfl)
    split
    · rename_i hp
      have hz : s.hold.froz = none := h.not_frozen.mp (by rw [hp]; exact Cas.not_frozen hy.perm)
      refine ⟨?_, fun _ => hy.newPerm, h.hold, ?_, ?_⟩
      · intro raw sp e'
        have e' : s.hold.froz = some (raw, sp) := e'
        rw [hz] at e'; cases e'
      · intro j o v p e'
        by_cases hj : j = i
        · subst hj; rw [go_th, if_pos rfl] at e'; cases e'
        · rw [go_th, if_neg hj] at e'; exact h.search _ _ _ _ e'
      · intro j y e'
        by_cases hj : j = i
        · subst hj; rw [go_th, if_pos rfl] at e'; cases e'
        · rw [go_th, if_neg hj] at e'; exact h.tries _ _ e'
    · exact h.of_th rfl rfl rfl rfl (by intro _ _ _ e; cases e) (by intro y' e'; cases e'; exact hy)
  case h_15 y t e =>
    have hy := ht y (by rw [e]; rfl)
    unfold casCell
    split <;> exact h.of_th rfl rfl rfl rfl (by intro _ _ _ e; cases e) (noTry rfl)
  case h_16 y e =>
    have hy := ht y (by rw [e]; rfl)
    unfold casCell
    split <;> exact h.of_th rfl rfl rfl rfl (by intro _ _ _ e; cases e) (noTry rfl)
  all_goals
    have hy := ht _ (by rename_i e; rw [e]; rfl)
    first
    | exact h.of_th rfl rfl rfl rfl (by intro _ _ _ e; cases e) (by intro y' e'; cases e'; exact hy)
    | (split
       · exact h.of_th rfl rfl rfl rfl (by intro _ _ _ e; cases e) (by intro y' e'; cases e'; exact hy)
       · exact h.of_th rfl rfl rfl rfl (by intro _ _ _ e; cases e) (by intro y' e'; cases e' <;> exact hy))

theorem Base.hstep {s : St} (h : Base s) (n : Nat) : Base (hstep s n) := by
  have hk := h.hold
  have hfr := h.frozen
  have hth := h.thawed
  unfold Cas.hstep
  split
  case h_1 e => exact h
  case h_2 e => exact h
  case h_3 lv e =>
    rw [e] at hk
    exact ⟨(by intro _ _ e; cases e), fun _ => hth (by rw [e]; rfl), dirty_split hk.1 hk.2, h.search, h.tries⟩
  case h_4 lv e =>
    rw [e] at hk
    have hp := hth (by rw [e]; rfl)
    have hf := Cas.not_frozen hp
    rw [if_neg (by rw [hk.1, hk.2.2, hf]; simp)]
    exact ⟨(by intro _ _ e; cases e), fun _ => hp, ⟨hk.1, hk.2.1, hk.2.2, hp⟩, h.search, h.tries⟩
  case h_5 lv raw e =>
    rw [e] at hk
    have hp := hth (by rw [e]; rfl)
    split
    · rename_i hpr
      split
      · rename_i hn
        refine ⟨?_, (by intro e; cases e), ⟨hk.1, hk.2.1, by omega, by omega⟩, h.search, h.tries⟩
        intro _ _ e; cases e
        exact ⟨rfl, hk.2.2.2, hn⟩
      · exact h
    · exact ⟨(by intro _ _ e; cases e), fun _ => hp, ⟨hk.1, hk.2.1, hk.2.2.1⟩, h.search, h.tries⟩
  case h_6 lv raw sp j e =>
    rw [e] at hk
    have hr := hfr raw sp (by rw [e]; rfl)
    split
    · rename_i hj
      exact ⟨(by intro _ _ e; cases e; exact hr), (by intro e; cases e), ⟨hk.1, hk.2.1, hk.2.2.1, hj⟩, h.search, h.tries⟩
    · exact ⟨(by intro _ _ e; cases e; exact hr), (by intro e; cases e), ⟨hk.1, hk.2.1⟩, h.search, h.tries⟩
  case h_7 lv raw sp j e =>
    rw [e] at hk
    have hr := hfr raw sp (by rw [e]; rfl)
    have := hk.2.2
    split <;> exact ⟨(by intro _ _ e; cases e; exact hr), (by intro e; cases e),
      ⟨hk.1, hk.2.1, by omega, by omega⟩, h.search, h.tries⟩
  case h_8 lv raw sp e =>
    rw [e] at hk
    have hr := hfr raw sp (by rw [e]; rfl)
    have := hr.2.1.size_le
    exact ⟨(by intro _ _ e; cases e), fun _ => permOK_setSize hr.2.1 (by omega), hk, h.search, h.tries⟩
  case h_9 lv e =>
    exact ⟨(by intro _ _ e; cases e), fun _ => hth (by rw [e]; rfl), trivial, h.search, h.tries⟩
  case h_10 lv o e =>
    rw [e] at hk
    have hp := hth (by rw [e]; rfl)
    split
    · rename_i hn
      exact ⟨(by intro _ _ e; cases e), fun _ => hp, ⟨hk.1, hk.2, hp, hn⟩, h.search, h.tries⟩
    · exact ⟨(by intro _ _ e; cases e), fun _ => hp, hk, h.search, h.tries⟩
  case h_14 lv p pos e =>
    rw [e] at hk
    exact ⟨(by intro _ _ e; cases e), fun _ => permOK_insert hk.2.2.1 hk.2.2.2.2 hk.2.2.2.1, ⟨hk.1, hk.2.1⟩, h.search, h.tries⟩
  all_goals
    rename_i e
    rw [e] at hk
    exact ⟨(by intro _ _ e; cases e), fun _ => hth (by rw [e]; rfl), hk, h.search, h.tries⟩

theorem Base.step {m : Bool} {s s' : St} (h : Base s) (st : Step m s s') : Base s' := by
  cases st with
  | start i o e => exact h.of_th rfl rfl rfl rfl (by intro _ _ _ e; cases e) (noTry rfl)
  | thread i pos off => exact h.tstep i pos off
  | lock hl =>
    have hd : NV.isDirty s.word = false := by
      cases hd : NV.isDirty s.word with
      | false => rfl
      | true => rw [not_lockable hd] at hl; cases hl
    have hfree := h.free_of_clean hd
    exact ⟨(by intro _ _ e; cases e), fun _ => h.thawed (by rw [hfree]; rfl), locked_bits hl, h.search, h.tries⟩
  | hold n => exact h.hstep n
  | giveUp lv e =>
    have hk := h.hold
    rw [e] at hk
    exact ⟨(by intro _ _ e; cases e), fun _ => h.thawed (by rw [e]; rfl), hk, h.search, h.tries⟩
  | insert lv o hm e =>
    have hk := h.hold
    rw [e] at hk
    exact ⟨(by intro _ _ e; cases e), fun _ => h.thawed (by rw [e]; rfl), hk, h.search, h.tries⟩

end Verif.Cas
