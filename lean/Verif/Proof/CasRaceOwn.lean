import Verif.Proof.CasRace
set_option linter.unusedSimpArgs false
set_option linter.unusedVariables false
/-!
# Who owns a slot in the machine of lock-free inserts
-/
namespace Verif.Cas
open Verif.Internode (upd upd_same upd_ne)
open Verif.Perm (size get back insertFromBack swapFreeSlots setSize params24)
open Verif.Tree (PermOK permOK_insert permOK_setSize)
open Verif.Store (permOK_swap)

/-- The permutation in force: the snapshot while frozen. -/
def cur (s : St) : BitVec 128 :=
  match s.hold.froz with
  | some x => x.1
  | none => s.perm

/-- Slot `x` is among the entries of permutation `p`. -/
def In (p : BitVec 128) (x : Nat) : Prop := ∃ k, k < size 5 p ∧ get 5 p k = x

/-- Slots already emptied by the split under way. -/
def HPc.taken : HPc → Nat → Prop
  | .take _ raw sp j, x => ∃ k, sp ≤ k ∧ k < j ∧ get 5 raw k = x
  | .clear _ raw sp j, x => ∃ k, sp ≤ k ∧ k ≤ j ∧ get 5 raw k = x
  | .unfreeze _ raw sp, x => ∃ k, sp ≤ k ∧ k < size 5 raw ∧ get 5 raw k = x
  | _, _ => False

/-- The attempt of a thread that has claimed its slot. -/
def Pc.held : Pc → Option Try
  | .chk1 y | .key y | .klx y | .chk2 y | .install y | .verify y _ | .chk3 y _ | .publish y _ | .undo y _
  | .release y => some y
  | _ => none

/-- What its slot contains. -/
def Pc.want : Pc → Cell
  | .verify _ t | .chk3 _ t | .publish _ t | .undo _ t => .val t
  | _ => .claiming

/-- Its slot is certainly not published. -/
def Pc.firm : Pc → Bool
  | .key _ | .klx _ | .chk2 _ | .install _ | .verify _ _ | .chk3 _ _ | .publish _ _ | .undo _ _ => true
  | _ => false

/-- What it has written so far. -/
def Pc.Data (s : St) : Pc → Prop
  | .klx y => s.ikey y.slot = y.o.ikey
  | .chk2 y | .install y => s.ikey y.slot = y.o.ikey ∧ s.klx y.slot = y.o.klx
  | .verify y t | .chk3 y t | .publish y t | .undo y t =>
    s.ikey y.slot = y.o.ikey ∧ s.klx y.slot = y.o.klx ∧ s.made t = y.o ∧ t < s.next
  | _ => True

/-- No insert runs under the lock. -/
def HPc.noIns : HPc → Bool
  | .iload _ _ | .ikey _ _ _ _ | .iptr _ _ _ _ | .iklx _ _ _ _ | .iperm _ _ _ => false
  | _ => true

/-- Ownership of slots. -/
structure Own (s : St) : Prop extends Base s where
  uniq : ∀ i j y z, (s.th i).held = some y → (s.th j).held = some z → y.slot = z.slot → i = j
  cell : ∀ i y, (s.th i).held = some y → s.cell y.slot = (s.th i).want
  firm : ∀ i y, (s.th i).held = some y → (s.th i).firm = true → ¬ In (cur s) y.slot
  soft : ∀ i y, (s.th i).held = some y → In (cur s) y.slot → s.hold.taken y.slot
  data : ∀ i, (s.th i).Data s
  pub : ∀ x, In (cur s) x → ¬ s.hold.taken x → ∃ t, s.cell x = .val t ∧ t < s.next ∧ s.made t = ⟨s.ikey x, s.klx x⟩
  inj : ∀ x z t, s.cell x = .val t → s.cell z = .val t → x = z
  fresh : ∀ x t, s.cell x = .val t → t < s.next
  ins : s.hold.noIns = true

theorem held_try {c : Pc} {y : Try} (h : c.held = some y) : c.try? = some y := by
  cases c <;> simp only [Pc.held, Pc.try?] at h ⊢ <;> first | exact h | (cases h)

theorem want_ne_null (c : Pc) : c.want ≠ .null := by cases c <;> simp [Pc.want]

theorem slot_lt {y : Try} (h : y.Ok) : y.slot < 24 := h.perm.lt _ (by omega)

theorem cur_ok {s : St} (h : Base s) : PermOK (cur s) := by
  unfold cur
  split
  · rename_i x e; exact (h.frozen x.1 x.2 e).2.1
  · rename_i e; exact h.thawed e

theorem in_lt {p : BitVec 128} (h : PermOK p) {x : Nat} (hx : In p x) : x < 24 := by
  obtain ⟨k, hk, rfl⟩ := hx
  have := h.size_le
  exact h.lt _ (by omega)

theorem slot_not_in {y : Try} (h : y.Ok) : ¬ In y.p y.slot := by
  rintro ⟨k, hk, e⟩
  have := h.off
  have := h.perm.inj k (23 - y.off) (by omega) (by omega) e
  omega

theorem in_insert {p : BitVec 128} (h : PermOK p) (hs : size 5 p < 24) {pos : Nat} (hp : pos ≤ size 5 p) (x : Nat) :
    In (insertFromBack 5 24 p pos).1 x ↔ In p x ∨ x = get 5 p 23 := by
  have hsz := Verif.Perm.size_insertFromBack params24 p (i := pos) (by omega) hs
  have hg := fun k (hk : k < 24) => Verif.Perm.get_insertFromBack params24 p (i := pos) (by omega) hk hs
  constructor
  · rintro ⟨k, hk, rfl⟩
    rw [hsz] at hk
    rw [hg k (by omega)]
    split
    · exact .inl ⟨k, by omega, rfl⟩
    · split
      · exact .inr rfl
      · exact .inl ⟨k - 1, by omega, rfl⟩
  · rintro (⟨k, hk, rfl⟩ | rfl)
    · by_cases hkp : k < pos
      · exact ⟨k, by omega, by rw [hg k (by omega), if_pos hkp]⟩
      · exact ⟨k + 1, by omega, by rw [hg (k + 1) (by omega), if_neg (by omega), if_neg (by omega)]; rfl⟩
    · exact ⟨pos, by omega, by rw [hg pos (by omega), if_neg (by omega), if_pos rfl]⟩

theorem in_newPerm {y : Try} (h : y.Ok) (x : Nat) : In y.newPerm x ↔ In y.p x ∨ x = y.slot := by
  have ho := h.off
  have hp := h.pos
  unfold Try.newPerm Try.slot
  split
  · rename_i e
    rw [in_insert h.perm (by omega) h.pos, e]
  · have hsz : size 5 (swapFreeSlots 5 y.p 23 (23 - y.off)) = size 5 y.p := by
      rw [Verif.Perm.swapFreeSlots_eq_exchange, Verif.Perm.size_exchange params24]
    have hg : ∀ k, k < 24 → get 5 (swapFreeSlots 5 y.p 23 (23 - y.off)) k =
        if k = 23 then get 5 y.p (23 - y.off) else if k = 23 - y.off then get 5 y.p 23 else get 5 y.p k := by
      intro k hk
      rw [Verif.Perm.swapFreeSlots_eq_exchange, Verif.Perm.get_exchange params24 _ (by omega) (by omega) hk]
    rw [in_insert (permOK_swap h.perm (by omega) (by omega)) (by omega) (by omega), hg 23 (by omega), if_pos rfl]
    have : In (swapFreeSlots 5 y.p 23 (23 - y.off)) x ↔ In y.p x := by
      constructor
      · rintro ⟨k, hk, e⟩
        rw [hg k (by omega), if_neg (by omega), if_neg (by omega)] at e
        exact ⟨k, by omega, e⟩
      · rintro ⟨k, hk, e⟩
        exact ⟨k, by omega, by rw [hg k (by omega), if_neg (by omega), if_neg (by omega)]; exact e⟩
    rw [this]

theorem taken_none {h : HPc} (e : h.froz = none) (x : Nat) : ¬ h.taken x := by
  cases h <;> simp only [HPc.froz] at e <;> first | exact id | (cases e)

theorem clean_of_check {v w : NV.W} (h : NV.hasChangedOrLocked v w = false) : NV.isDirty w = false := by
  unfold NV.hasChangedOrLocked at h
  split at h
  · cases h
  · unfold NV.isDirty
    cases hd : (w &&& NV.DIRTY != 0#32) with
    | false => rfl
    | true => rw [hd] at h; simp at h

/-- Data of a thread depends on its slot only. -/
theorem data_congr {s s' : St} {c : Pc} (h : c.Data s)
    (hk : ∀ y, c.held = some y → c.firm = true → s'.ikey y.slot = s.ikey y.slot ∧ s'.klx y.slot = s.klx y.slot)
    (hn : s.next ≤ s'.next) (hm : ∀ t, t < s.next → s'.made t = s.made t) : c.Data s' := by
  cases c <;> simp only [Pc.Data, Pc.held, Pc.firm] at h hk ⊢ <;> try trivial
  case klx y => rw [(hk y rfl trivial).1]; exact h
  case chk2 y => rw [(hk y rfl trivial).1, (hk y rfl trivial).2]; exact h
  case install y => rw [(hk y rfl trivial).1, (hk y rfl trivial).2]; exact h
  all_goals
    rename_i y t
    rw [(hk y rfl trivial).1, (hk y rfl trivial).2, hm t h.2.2.2]
    exact ⟨h.1, h.2.1, h.2.2.1, by omega⟩

/-- A thread moved and wrote at most slot `x`. -/
theorem Own.move {s s' : St} (h : Own s) (hb : Base s') {i x : Nat} {c : Pc}
    (hperm : s'.perm = s.perm) (hhold : s'.hold = s.hold) (hth : s'.th = upd s.th i c)
    (hik : ∀ z, z ≠ x → s'.ikey z = s.ikey z) (hkl : ∀ z, z ≠ x → s'.klx z = s.klx z)
    (hce : ∀ z, z ≠ x → s'.cell z = s.cell z)
    (hn : s.next ≤ s'.next) (hm : ∀ t, t < s.next → s'.made t = s.made t)
    (hfree : ∀ j, j ≠ i → ∀ y, (s.th j).held = some y → y.slot ≠ x)
    (hpub : In (cur s) x → s.hold.taken x)
    (hheld : ∀ y, c.held = some y → y.slot = x ∧ s'.cell x = c.want ∧ (c.firm = true → ¬ In (cur s) x))
    (hdata : c.Data s')
    (hcx : ∀ t, s'.cell x = .val t → t < s'.next ∧ ∀ z, z ≠ x → s.cell z ≠ .val t) : Own s' := by
  have hcur : cur s' = cur s := by unfold cur; rw [hhold, hperm]
  have hthi : s'.th i = c := by rw [hth, upd_same]
  have hthj : ∀ j, j ≠ i → s'.th j = s.th j := fun j hj => by rw [hth, upd_ne _ _ _ hj]
  refine { toBase := hb, uniq := ?_, cell := ?_, firm := ?_, soft := ?_, data := ?_, pub := ?_, inj := ?_, fresh := ?_, ins := ?_ }
  · intro a b y z ha hb' e
    by_cases hai : a = i <;> by_cases hbi : b = i
    · omega
    · subst hai; rw [hthi] at ha; rw [hthj b hbi] at hb'
      exact absurd ((e.symm.trans (hheld y ha).1)) (hfree b hbi z hb')
    · subst hbi; rw [hthi] at hb'; rw [hthj a hai] at ha
      exact absurd (e.trans (hheld z hb').1) (hfree a hai y ha)
    · rw [hthj a hai] at ha; rw [hthj b hbi] at hb'; exact h.uniq a b y z ha hb' e
  · intro j y e
    by_cases hj : j = i
    · subst hj; rw [hthi] at e ⊢; rw [(hheld y e).1]; exact (hheld y e).2.1
    · rw [hthj j hj] at e ⊢; rw [hce _ (hfree j hj y e)]; exact h.cell j y e
  · intro j y e hf
    rw [hcur]
    by_cases hj : j = i
    · subst hj; rw [hthi] at e hf; rw [(hheld y e).1]; exact (hheld y e).2.2 hf
    · rw [hthj j hj] at e hf; exact h.firm j y e hf
  · intro j y e hp
    rw [hcur] at hp; rw [hhold]
    by_cases hj : j = i
    · subst hj; rw [hthi] at e; rw [(hheld y e).1] at hp ⊢; exact hpub hp
    · rw [hthj j hj] at e; exact h.soft j y e hp
  · intro j
    by_cases hj : j = i
    · subst hj; rw [hthi]; exact hdata
    · rw [hthj j hj]
      exact data_congr (h.data j) (fun y e _ => ⟨hik _ (hfree j hj y e), hkl _ (hfree j hj y e)⟩) hn hm
  · intro z hz ht
    rw [hcur] at hz; rw [hhold] at ht
    have hzx : z ≠ x := fun e => ht (e ▸ hpub (e ▸ hz))
    obtain ⟨t, h1, h2, h3⟩ := h.pub z hz ht
    exact ⟨t, by rw [hce z hzx]; exact h1, by omega, by rw [hik z hzx, hkl z hzx, hm t h2]; exact h3⟩
  · intro a b t ha hb'
    by_cases hax : a = x <;> by_cases hbx : b = x
    · omega
    · subst hax; rw [hce b hbx] at hb'; exact absurd hb' ((hcx t ha).2 b hbx)
    · subst hbx; rw [hce a hax] at ha; exact absurd ha ((hcx t hb').2 a hax)
    · rw [hce a hax] at ha; rw [hce b hbx] at hb'; exact h.inj a b t ha hb'
  · intro a t ha
    by_cases hax : a = x
    · subst hax; exact (hcx t ha).1
    · rw [hce a hax] at ha; have := h.fresh a t ha; omega
  · rw [hhold]; exact h.ins

/-- A thread without a slot moved and still has none. -/
theorem Own.moveFree {s : St} (h : Own s) {i : Nat} {c : Pc} (hb : Base (s.go i c)) (hc : c.held = none)
    (hd : ∀ s, c.Data s) : Own (s.go i c) := by
  refine h.move hb (i := i) (x := 24) (c := c) rfl rfl rfl (fun _ _ => rfl) (fun _ _ => rfl) (fun _ _ => rfl) (Nat.le_refl _)
    (fun _ _ => rfl) ?_ ?_ ?_ (hd _) ?_
  · intro j hj y e
    have := slot_lt (h.tries j y (held_try e))
    omega
  · intro hx; have := in_lt (cur_ok h.toBase) hx; omega
  · intro y e; rw [hc] at e; cases e
  · intro t e; exact ⟨h.fresh _ _ e, fun z hz e' => hz (h.inj z 24 t e' e)⟩

/-- A thread with a slot moved and wrote at most its slot. -/
theorem Own.moveHeld {s s' : St} (h : Own s) (hb : Base s') {i : Nat} {c : Pc} {y : Try}
    (hy : (s.th i).held = some y)
    (hperm : s'.perm = s.perm) (hhold : s'.hold = s.hold) (hth : s'.th = upd s.th i c)
    (hik : ∀ z, z ≠ y.slot → s'.ikey z = s.ikey z) (hkl : ∀ z, z ≠ y.slot → s'.klx z = s.klx z)
    (hce : ∀ z, z ≠ y.slot → s'.cell z = s.cell z)
    (hn : s.next ≤ s'.next) (hm : ∀ t, t < s.next → s'.made t = s.made t)
    (hheld : ∀ z, c.held = some z → z = y ∧ s'.cell y.slot = c.want ∧ (c.firm = true → ¬ In (cur s) y.slot))
    (hdata : c.Data s')
    (hcx : ∀ t, s'.cell y.slot = .val t → t < s'.next ∧ ∀ z, z ≠ y.slot → s.cell z ≠ .val t) : Own s' := by
  refine h.move hb hperm hhold hth hik hkl hce hn hm ?_ (h.soft i y hy) ?_ hdata hcx
  · intro j hj z hz e; exact hj (h.uniq j i z y hz hy e)
  · intro z hz; obtain ⟨rfl, h2⟩ := hheld z hz; exact ⟨rfl, h2⟩

theorem Own.same {s : St} (h : Own s) {x : Nat} : ∀ t, s.cell x = .val t → t < s.next ∧ ∀ z, z ≠ x → s.cell z ≠ .val t :=
  fun t e => ⟨h.fresh _ _ e, fun z hz e' => hz (h.inj z x t e' e)⟩

theorem Own.tstep {s : St} (h : Own s) (i pos off : Nat) : Own (tstep s i pos off) := by
  have hb := h.toBase.tstep i pos off
  have hc := h.cell i
  have hf := h.firm i
  have hd := h.data i
  unfold Cas.tstep at hb ⊢
  split at hb <;> rename_i e
  · exact h
  · exact h.moveFree hb rfl (fun _ => trivial)
  · split at hb
    · rename_i hc; rw [if_pos hc]; exact h.moveFree hb rfl (fun _ => trivial)
    · rename_i hc; rw [if_neg hc]; exact h.moveFree hb rfl (fun _ => trivial)
  · split at hb
    · rename_i hc; rw [if_pos hc]; exact h.moveFree hb rfl (fun _ => trivial)
    · rename_i hc; rw [if_neg hc]; exact h.moveFree hb rfl (fun _ => trivial)
  · split at hb
    · rename_i hc; rw [if_pos hc]; exact h.moveFree hb rfl (fun _ => trivial)
    · rename_i hc; rw [if_neg hc]; exact h.moveFree hb rfl (fun _ => trivial)
  · rename_i y
    split at hb
    · rename_i hn; rw [if_pos hn]
      refine h.move hb (i := i) (x := y.slot) (c := .chk1 y) rfl rfl rfl (fun _ _ => rfl) (fun _ _ => rfl)
        (fun z hz => upd_ne _ _ _ hz) (Nat.le_refl _) (fun _ _ => rfl) ?_ ?_ ?_ trivial ?_
      · intro j hj z hz e'
        have := h.cell j z hz
        rw [e', hn] at this
        exact want_ne_null _ this.symm
      · intro hp
        apply Classical.byContradiction
        intro ht
        obtain ⟨t, h1, _⟩ := h.pub _ hp ht
        rw [hn] at h1; cases h1
      · intro z hz; cases hz
        exact ⟨rfl, upd_same _ _ _, by intro e; cases e⟩
      · intro t ht
        have ht : upd s.cell y.slot .claiming y.slot = .val t := ht
        rw [upd_same] at ht; cases ht
    · rename_i hn; rw [if_neg hn]; exact h.moveFree hb rfl (fun _ => trivial)
  · -- chk1
    rename_i y
    rw [e] at hc hf hd
    split at hb
    · rename_i hn; rw [if_pos hn]
      refine h.moveHeld hb (y := y) (by rw [e]; rfl) rfl rfl rfl (fun _ _ => rfl) (fun _ _ => rfl) (fun _ _ => rfl) (Nat.le_refl _)
        (fun _ _ => rfl) ?_ trivial h.same
      intro z hz; cases hz; exact ⟨rfl, hc y rfl, by intro e; cases e⟩
    · rename_i hn; rw [if_neg hn]
      have hclean := clean_of_check (by simpa using hn)
      have hfree := h.toBase.free_of_clean hclean
      refine h.moveHeld hb (y := y) (by rw [e]; rfl) rfl rfl rfl (fun _ _ => rfl) (fun _ _ => rfl) (fun _ _ => rfl) (Nat.le_refl _)
        (fun _ _ => rfl) ?_ trivial h.same
      intro z hz; cases hz
      refine ⟨rfl, hc y rfl, fun _ hp => ?_⟩
      have := h.soft i y (by rw [e]; rfl) hp
      rw [hfree] at this; exact this
  · -- key
    rename_i y
    rw [e] at hc hf hd
    refine h.moveHeld hb (y := y) (by rw [e]; rfl) rfl rfl rfl (fun z hz => upd_ne _ _ _ hz) (fun _ _ => rfl) (fun _ _ => rfl)
      (Nat.le_refl _) (fun _ _ => rfl) ?_ (upd_same _ _ _) h.same
    intro z hz; cases hz; exact ⟨rfl, hc y rfl, fun _ => hf y rfl rfl⟩
  · -- klx
    rename_i y
    rw [e] at hc hf hd
    refine h.moveHeld hb (y := y) (by rw [e]; rfl) rfl rfl rfl (fun _ _ => rfl) (fun z hz => upd_ne _ _ _ hz) (fun _ _ => rfl)
      (Nat.le_refl _) (fun _ _ => rfl) ?_ ⟨hd, upd_same _ _ _⟩ h.same
    intro z hz; cases hz; exact ⟨rfl, hc y rfl, fun _ => hf y rfl rfl⟩
  · -- chk2
    rename_i y
    rw [e] at hc hf hd
    split at hb
    · rename_i hn; rw [if_pos hn]
      refine h.moveHeld hb (y := y) (by rw [e]; rfl) rfl rfl rfl (fun _ _ => rfl) (fun _ _ => rfl) (fun _ _ => rfl) (Nat.le_refl _)
        (fun _ _ => rfl) ?_ trivial h.same
      intro z hz; cases hz; exact ⟨rfl, hc y rfl, by intro e; cases e⟩
    · rename_i hn; rw [if_neg hn]
      refine h.moveHeld hb (y := y) (by rw [e]; rfl) rfl rfl rfl (fun _ _ => rfl) (fun _ _ => rfl) (fun _ _ => rfl) (Nat.le_refl _)
        (fun _ _ => rfl) ?_ hd h.same
      intro z hz; cases hz; exact ⟨rfl, hc y rfl, fun _ => hf y rfl rfl⟩
  · -- install
    rename_i y
    rw [e] at hc hf hd
    have hcl : s.cell y.slot = .claiming := hc y rfl
    rw [if_pos hcl] at hb ⊢
    refine h.moveHeld hb (y := y) (by rw [e]; rfl) rfl rfl rfl (fun _ _ => rfl) (fun _ _ => rfl) (fun z hz => upd_ne _ _ _ hz)
      (Nat.le_succ _) (fun t ht => upd_ne _ _ _ (by omega)) ?_ ⟨hd.1, hd.2, upd_same _ _ _, Nat.lt_succ_self _⟩ ?_
    · intro z hz; cases hz; exact ⟨rfl, upd_same _ _ _, fun _ => hf y rfl rfl⟩
    · intro t ht
      have ht : upd s.cell y.slot (.val s.next) y.slot = .val t := ht
      rw [upd_same] at ht; cases ht
      refine ⟨Nat.lt_succ_self _, fun z hz e' => ?_⟩
      have := h.fresh _ _ e'; omega
  · -- verify
    rename_i y t
    rw [e] at hc hf hd
    have hcl : s.cell y.slot = .val t := hc y rfl
    rw [if_pos hcl] at hb ⊢
    refine h.moveHeld hb (y := y) (by rw [e]; rfl) rfl rfl rfl (fun _ _ => rfl) (fun _ _ => rfl) (fun _ _ => rfl) (Nat.le_refl _)
      (fun _ _ => rfl) ?_ hd h.same
    intro z hz; cases hz; exact ⟨rfl, hc y rfl, fun _ => hf y rfl rfl⟩
  · -- chk3
    rename_i y t
    rw [e] at hc hf hd
    split at hb
    · rename_i hn; rw [if_pos hn]
      refine h.moveHeld hb (y := y) (by rw [e]; rfl) rfl rfl rfl (fun _ _ => rfl) (fun _ _ => rfl) (fun _ _ => rfl) (Nat.le_refl _)
        (fun _ _ => rfl) ?_ hd h.same
      intro z hz; cases hz; exact ⟨rfl, hc y rfl, fun _ => hf y rfl rfl⟩
    · rename_i hn; rw [if_neg hn]
      refine h.moveHeld hb (y := y) (by rw [e]; rfl) rfl rfl rfl (fun _ _ => rfl) (fun _ _ => rfl) (fun _ _ => rfl) (Nat.le_refl _)
        (fun _ _ => rfl) ?_ hd h.same
      intro z hz; cases hz; exact ⟨rfl, hc y rfl, fun _ => hf y rfl rfl⟩
  · -- publish
    rename_i y t
    rw [e] at hc hf hd
    have hy := h.tries i y (by rw [e]; rfl)
    split at hb
    · rename_i hn; rw [if_pos hn]
      have hz : s.hold.froz = none := h.not_frozen.mp (by rw [hn]; exact Cas.not_frozen hy.perm)
      have hcs : cur s = y.p := by unfold cur; rw [hz]; exact hn
      have hcur : cur ({ s with perm := y.newPerm }.go i .idle) = y.newPerm := by
        show (match s.hold.froz with | some x => x.1 | none => y.newPerm) = y.newPerm
        rw [hz]
      have hnt := taken_none hz
      have hthj : ∀ j, j ≠ i → ({ s with perm := y.newPerm }.go i .idle).th j = s.th j := fun j hj => upd_ne _ _ _ hj
      have hthi : ({ s with perm := y.newPerm }.go i .idle).th i = .idle := upd_same _ _ _
      have hne : ∀ j, j ≠ i → ∀ z, (s.th j).held = some z → z.slot ≠ y.slot := fun j hj z hz e' =>
        hj (h.uniq j i z y hz (by rw [e]; rfl) e')
      refine { toBase := hb, uniq := ?_, cell := ?_, firm := ?_, soft := ?_, data := ?_, pub := ?_, inj := h.inj,
               fresh := h.fresh, ins := h.ins }
      · intro a b u v ha hb' e'
        by_cases hai : a = i
        · subst hai; rw [hthi] at ha; cases ha
        · by_cases hbi : b = i
          · subst hbi; rw [hthi] at hb'; cases hb'
          · rw [hthj a hai] at ha; rw [hthj b hbi] at hb'; exact h.uniq a b u v ha hb' e'
      · intro j u e'
        by_cases hj : j = i
        · subst hj; rw [hthi] at e'; cases e'
        · rw [hthj j hj] at e' ⊢; exact h.cell j u e'
      · intro j u e' hfi
        by_cases hj : j = i
        · subst hj; rw [hthi] at e'; cases e'
        · rw [hthj j hj] at e' hfi
          rw [hcur, in_newPerm hy, ← hcs]
          rintro (hp | hp)
          · exact h.firm j u e' hfi hp
          · exact hne j hj u e' hp
      · intro j u e' hp
        by_cases hj : j = i
        · subst hj; rw [hthi] at e'; cases e'
        · rw [hthj j hj] at e'
          rw [hcur, in_newPerm hy, ← hcs] at hp
          rcases hp with hp | hp
          · exact h.soft j u e' hp
          · exact absurd hp (hne j hj u e')
      · intro j
        by_cases hj : j = i
        · subst hj; rw [hthi]; trivial
        · rw [hthj j hj]; exact data_congr (h.data j) (fun _ _ _ => ⟨rfl, rfl⟩) (Nat.le_refl _) (fun _ _ => rfl)
      · intro x hx ht
        rw [hcur, in_newPerm hy, ← hcs] at hx
        rcases hx with hx | hx
        · exact h.pub x hx (hnt x)
        · subst hx
          refine ⟨t, hc y rfl, hd.2.2.2, ?_⟩
          show s.made t = ⟨s.ikey y.slot, s.klx y.slot⟩
          rw [hd.2.2.1, hd.1, hd.2.1]
    · rename_i hn; rw [if_neg hn]
      refine h.moveHeld hb (y := y) (by rw [e]; rfl) rfl rfl rfl (fun _ _ => rfl) (fun _ _ => rfl) (fun _ _ => rfl) (Nat.le_refl _)
        (fun _ _ => rfl) ?_ hd h.same
      intro z hz; cases hz; exact ⟨rfl, hc y rfl, fun _ => hf y rfl rfl⟩
  · -- undo
    rename_i y t
    rw [e] at hc hf hd
    have hcl : s.cell y.slot = .val t := hc y rfl
    unfold casCell at hb ⊢
    rw [if_pos hcl] at hb ⊢
    refine h.moveHeld hb (y := y) (by rw [e]; rfl) rfl rfl rfl (fun _ _ => rfl) (fun _ _ => rfl) (fun z hz => upd_ne _ _ _ hz)
      (Nat.le_refl _) (fun _ _ => rfl) (by intro z hz; cases hz) trivial ?_
    intro t ht
    have ht : upd s.cell y.slot .null y.slot = .val t := ht
    rw [upd_same] at ht; cases ht
  · -- release
    rename_i y
    rw [e] at hc hf hd
    have hcl : s.cell y.slot = .claiming := hc y rfl
    unfold casCell at hb ⊢
    rw [if_pos hcl] at hb ⊢
    refine h.moveHeld hb (y := y) (by rw [e]; rfl) rfl rfl rfl (fun _ _ => rfl) (fun _ _ => rfl) (fun z hz => upd_ne _ _ _ hz)
      (Nat.le_refl _) (fun _ _ => rfl) (by intro z hz; cases hz) trivial ?_
    intro t ht
    have ht : upd s.cell y.slot .null y.slot = .val t := ht
    rw [upd_same] at ht; cases ht

/-- The holder moved without touching the leaf. -/
theorem Own.holdOnly {s s' : St} (h : Own s) (hb : Base s') (hcur : cur s' = cur s)
    (htk : ∀ x, s'.hold.taken x ↔ s.hold.taken x) (hth : s'.th = s.th) (hik : s'.ikey = s.ikey) (hkl : s'.klx = s.klx)
    (hce : s'.cell = s.cell) (hn : s'.next = s.next) (hm : s'.made = s.made) (hins : s'.hold.noIns = true) : Own s' := by
  refine { toBase := hb, uniq := ?_, cell := ?_, firm := ?_, soft := ?_, data := ?_, pub := ?_, inj := ?_, fresh := ?_, ins := hins }
  · rw [hth]; exact h.uniq
  · rw [hth, hce]; exact h.cell
  · rw [hth, hcur]; exact h.firm
  · intro i y e hp; rw [hth] at e; rw [hcur] at hp; exact (htk _).mpr (h.soft i y e hp)
  · intro i; rw [hth]
    exact data_congr (h.data i) (fun _ _ _ => by rw [hik, hkl]; exact ⟨rfl, rfl⟩) (by omega) (fun _ _ => by rw [hm])
  · intro x hx ht
    rw [hcur] at hx
    rw [hce, hn, hm, hik, hkl]
    exact h.pub x hx (fun e => ht ((htk x).mpr e))
  · rw [hce]; exact h.inj
  · rw [hce, hn]; exact h.fresh

theorem cur_none {s : St} (h : s.hold.froz = none) : cur s = s.perm := by unfold cur; rw [h]
theorem cur_some {s : St} {raw : BitVec 128} {sp : Nat} (h : s.hold.froz = some (raw, sp)) : cur s = raw := by
  unfold cur; rw [h]

/-- A slot that the split is about to empty, or has just emptied, is not firmly held. -/
theorem Own.hstep {s : St} (h : Own s) (n : Nat) : Own (hstep s n) := by
  have hb := h.toBase.hstep n
  have hk := h.hold
  have hin := h.ins
  unfold Cas.hstep at hb ⊢
  split at hb <;> rename_i e
  · exact h
  · exact h
  · -- locked
    exact h.holdOnly hb (by rw [cur_none rfl, cur_none (by rw [e]; rfl)]) (fun x => by rw [e]; exact Iff.rfl) rfl rfl rfl rfl rfl rfl rfl
  · -- marked
    split at hb
    · exact hb.hold.elim
    · rename_i hc; rw [if_neg hc]
      exact h.holdOnly hb (by rw [cur_none rfl, cur_none (by rw [e]; rfl)]) (fun x => by rw [e]; exact Iff.rfl) rfl rfl rfl rfl rfl rfl rfl
  · -- freezing
    rename_i lv raw
    split at hb
    · rename_i hpr; rw [if_pos hpr]
      split at hb
      · rename_i hn; rw [if_pos hn]
        refine h.holdOnly hb ?_ (fun x => ?_) rfl rfl rfl rfl rfl rfl rfl
        · rw [cur_some (raw := raw) (sp := n) rfl, cur_none (by rw [e]; rfl), hpr]
        · rw [e]
          constructor
          · rintro ⟨k, h1, h2, _⟩; omega
          · exact False.elim
      · rename_i hn; rw [if_neg hn]; exact h
    · rename_i hpr; rw [if_neg hpr]
      exact h.holdOnly hb (by rw [cur_none rfl, cur_none (by rw [e]; rfl)]) (fun x => by rw [e]; exact Iff.rfl) rfl rfl rfl rfl rfl rfl rfl
  · -- take
    rename_i lv raw sp j
    rw [e] at hk
    have hcs : cur s = raw := cur_some (sp := sp) (by rw [e]; rfl)
    have hraw := (h.frozen raw sp (by rw [e]; rfl)).2.1
    split at hb
    · rename_i hj; rw [if_pos hj]
      have hcs' : cur { s with cell := upd s.cell (get 5 raw j) .null, hold := .clear lv raw sp j } = raw :=
        cur_some (sp := sp) rfl
      have hpub : In (cur s) (get 5 raw j) := by rw [hcs]; exact ⟨j, hj, rfl⟩
      have hnt : ¬ s.hold.taken (get 5 raw j) := by
        rw [e]
        rintro ⟨k, h1, h2, h3⟩
        have := hraw.size_le
        have := hraw.inj k j (by omega) (by omega) h3
        omega
      have hno : ∀ i y, (s.th i).held = some y → y.slot ≠ get 5 raw j := by
        intro i y e' hx
        exact hnt (hx ▸ h.soft i y e' (hx ▸ hpub))
      have hcell : ∀ x, x ≠ get 5 raw j → upd s.cell (get 5 raw j) .null x = s.cell x := fun x hx => upd_ne _ _ _ hx
      have hval : ∀ x t, upd s.cell (get 5 raw j) .null x = .val t → x ≠ get 5 raw j := by
        intro x t hx e'; subst e'; rw [upd_same] at hx; cases hx
      refine { toBase := hb, uniq := h.uniq, cell := ?_, firm := ?_, soft := ?_, data := ?_, pub := ?_, inj := ?_, fresh := ?_,
               ins := rfl }
      · intro i y e'
        show upd s.cell _ _ _ = _
        rw [hcell _ (hno i y e')]; exact h.cell i y e'
      · intro i y e' hf; rw [hcs', ← hcs]; exact h.firm i y e' hf
      · intro i y e' hp
        rw [hcs', ← hcs] at hp
        have := h.soft i y e' hp
        rw [e] at this
        obtain ⟨k, h1, h2, h3⟩ := this
        exact ⟨k, h1, by omega, h3⟩
      · intro i; exact data_congr (h.data i) (fun _ _ _ => ⟨rfl, rfl⟩) (Nat.le_refl _) (fun _ _ => rfl)
      · intro x hx ht
        rw [hcs', ← hcs] at hx
        have hxj : x ≠ get 5 raw j := fun e' => ht ⟨j, hk.2.2.1, Nat.le_refl _, e'.symm⟩
        show ∃ t, upd s.cell _ _ _ = _ ∧ _
        rw [hcell x hxj]
        refine h.pub x hx ?_
        rw [e]; rintro ⟨k, h1, h2, h3⟩
        exact ht ⟨k, h1, by omega, h3⟩
      · intro x z t hx hz
        have hx' : upd s.cell _ _ x = _ := hx
        have hz' : upd s.cell _ _ z = _ := hz
        rw [hcell _ (hval x t hx)] at hx'; rw [hcell _ (hval z t hz)] at hz'
        exact h.inj x z t hx' hz'
      · intro x t hx
        have hx' : upd s.cell _ _ x = _ := hx
        rw [hcell _ (hval x t hx)] at hx'
        exact h.fresh x t hx'
    · rename_i hj; rw [if_neg hj]
      refine h.holdOnly hb (by rw [hcs, cur_some (raw := raw) (sp := sp) rfl]) (fun x => ?_) rfl rfl rfl rfl rfl rfl rfl
      rw [e]
      have hje : j = size 5 raw := by have := hk.2.2.2; omega
      subst hje
      exact Iff.rfl
  · -- clear
    rename_i lv raw sp j
    rw [e] at hk
    have hcs : cur s = raw := cur_some (sp := sp) (by rw [e]; rfl)
    have hraw := (h.frozen raw sp (by rw [e]; rfl)).2.1
    have htk : ∀ x, (HPc.take lv raw sp (j + 1)).taken x ↔ s.hold.taken x := by
      intro x; rw [e]
      constructor
      · rintro ⟨k, h1, h2, h3⟩; exact ⟨k, h1, by omega, h3⟩
      · rintro ⟨k, h1, h2, h3⟩; exact ⟨k, h1, by omega, h3⟩
    split at hb
    · rename_i hn; rw [if_pos hn]
      exact h.holdOnly hb (by rw [hcs, cur_some (raw := raw) (sp := sp) rfl]) htk rfl rfl rfl rfl rfl rfl rfl
    · rename_i hn; rw [if_neg hn]
      have hcs' : cur { s with klx := upd s.klx (get 5 raw j) 0, hold := .take lv raw sp (j + 1) } = raw :=
        cur_some (sp := sp) rfl
      have hpub : In (cur s) (get 5 raw j) := by rw [hcs]; exact ⟨j, hk.2.2.2, rfl⟩
      refine { toBase := hb, uniq := h.uniq, cell := h.cell, firm := ?_, soft := ?_, data := ?_, pub := ?_, inj := h.inj,
               fresh := h.fresh, ins := rfl }
      · intro i y e' hf; rw [hcs', ← hcs]; exact h.firm i y e' hf
      · intro i y e' hp; rw [hcs', ← hcs] at hp; exact (htk _).mpr (h.soft i y e' hp)
      · intro i
        refine data_congr (h.data i) (fun y e' hf => ⟨rfl, upd_ne _ _ _ ?_⟩) (Nat.le_refl _) (fun _ _ => rfl)
        intro hx
        exact h.firm i y e' hf (hx ▸ hpub)
      · intro x hx ht
        rw [hcs', ← hcs] at hx
        have ht' : ¬ s.hold.taken x := fun e' => ht ((htk x).mpr e')
        have hxj : x ≠ get 5 raw j := fun e' => ht' (by rw [e]; exact ⟨j, hk.2.2.1, Nat.le_refl _, e'.symm⟩)
        show ∃ t, _ ∧ _ ∧ s.made t = ⟨s.ikey x, upd s.klx _ _ _⟩
        rw [upd_ne _ _ _ hxj]
        exact h.pub x hx ht'
  · -- unfreeze
    rename_i lv raw sp
    rw [e] at hk
    have hcs : cur s = raw := cur_some (sp := sp) (by rw [e]; rfl)
    obtain ⟨_, hraw, hsp0, hsp⟩ := h.frozen raw sp (by rw [e]; rfl)
    have hle := hraw.size_le
    have hcs' : cur { s with perm := setSize 5 raw sp, hold := .unlock lv } = setSize 5 raw sp := cur_none rfl
    have hin : ∀ x, In (setSize 5 raw sp) x → In raw x ∧ ¬ s.hold.taken x := by
      rintro x ⟨k, hk1, hk2⟩
      rw [Verif.Perm.size_setSize params24 raw (by omega)] at hk1
      rw [Verif.Perm.get_setSize params24 raw (by omega) (by omega)] at hk2
      refine ⟨⟨k, by omega, hk2⟩, ?_⟩
      rw [e]
      rintro ⟨k', h1, h2, h3⟩
      have := hraw.inj k k' (by omega) (by omega) (hk2.trans h3.symm)
      omega
    refine { toBase := hb, uniq := h.uniq, cell := h.cell, firm := ?_, soft := ?_, data := ?_, pub := ?_, inj := h.inj,
             fresh := h.fresh, ins := rfl }
    · intro i y e' hf; rw [hcs']; intro hx
      exact h.firm i y e' hf (by rw [hcs]; exact (hin _ hx).1)
    · intro i y e' hx
      rw [hcs'] at hx
      exact absurd (h.soft i y e' (by rw [hcs]; exact (hin _ hx).1)) (hin _ hx).2
    · intro i; exact data_congr (h.data i) (fun _ _ _ => ⟨rfl, rfl⟩) (Nat.le_refl _) (fun _ _ => rfl)
    · intro x hx _
      rw [hcs'] at hx
      exact h.pub x (by rw [hcs]; exact (hin x hx).1) (hin x hx).2
  · -- unlock
    exact h.holdOnly hb (by rw [cur_none rfl, cur_none (by rw [e]; rfl)]) (fun x => by rw [e]; exact Iff.rfl) rfl rfl rfl rfl rfl rfl rfl
  all_goals (rw [e] at hin; cases hin)

theorem Own.step {s s' : St} (h : Own s) (st : Step false s s') : Own s' := by
  have hb := h.toBase.step st
  cases st with
  | start i o e => exact h.moveFree hb rfl (fun _ => trivial)
  | thread i pos off => exact h.tstep i pos off
  | lock hl =>
    have hd : NV.isDirty s.word = false := by
      cases hd : NV.isDirty s.word with
      | false => rfl
      | true => rw [not_lockable hd] at hl; cases hl
    have e := h.toBase.free_of_clean hd
    exact h.holdOnly hb (by rw [cur_none rfl, cur_none (by rw [e]; rfl)]) (fun x => by rw [e]; exact Iff.rfl) rfl rfl rfl rfl rfl rfl rfl
  | hold n => exact h.hstep n
  | giveUp lv e =>
    exact h.holdOnly hb (by rw [cur_none rfl, cur_none (by rw [e]; rfl)]) (fun x => by rw [e]; exact Iff.rfl) rfl rfl rfl rfl rfl rfl rfl
  | insert lv o hm e => cases hm

end Verif.Cas
