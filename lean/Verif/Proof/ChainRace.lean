import Verif.Model.ChainRace
import Verif.Proof.CasRaceOwn
import Verif.Spec.LeafView
import Mathlib.Tactic.ByContra
set_option linter.unusedSimpArgs false
set_option linter.unusedVariables false
/-!
# Invariant of the chain of leaves
-/
namespace Verif.Chain
open Verif.Internode (upd upd_same upd_ne)
open Verif.Perm (size get makeSorted24 setSize params24)
open Verif.Tree (PermOK permOK_insert permOK_setSize permOK_initial size_initial permOK_makeSorted size_makeSorted
  get_makeSorted Leaf Cell)
open Verif.Cas (In locked_bits dirty_split not_lockable)
variable {V : Type}

/-- Frozen snapshot, split point and new leaf, while the permutation is frozen. -/
def HPc.froz : HPc → Option (BitVec 128 × Nat × Nat)
  | .take _ raw sp y _ => some (raw, sp, y)
  | .clear _ raw sp y _ => some (raw, sp, y)
  | .unfreeze _ raw sp y => some (raw, sp, y)
  | _ => none

/-- The new leaf after the permutation was truncated and before it is linked. -/
def HPc.cut : HPc → Option Nat
  | .mark _ y | .setNext _ y | .publish _ y => some y
  | _ => none

/-- The private new leaf. -/
def HPc.new : HPc → Option Nat
  | .take _ _ _ y _ | .clear _ _ _ y _ | .unfreeze _ _ _ y | .mark _ y | .setNext _ y | .publish _ y => some y
  | _ => none

/-- Position up to which entries have been copied. -/
def HPc.cnt : HPc → Nat
  | .take _ _ _ _ j => j
  | .clear _ _ _ _ j => j + 1
  | .unfreeze _ raw _ _ => size 5 raw
  | _ => 0

/-- The permutation in force. -/
def cur (b : Leaf V) (h : HPc) : BitVec 128 :=
  match h.froz with
  | some x => x.1
  | none => b.perm

theorem cur_none {b : Leaf V} {h : HPc} (e : h.froz = none) : cur b h = b.perm := by unfold cur; rw [e]
theorem cur_some {b : Leaf V} {h : HPc} {raw : BitVec 128} {sp y : Nat} (e : h.froz = some (raw, sp, y)) :
    cur b h = raw := by unfold cur; rw [e]

theorem froz_new {h : HPc} {raw : BitVec 128} {sp y : Nat} (e : h.froz = some (raw, sp, y)) : h.new = some y := by
  cases h <;> simp only [HPc.froz] at e <;> cases e <;> rfl
theorem cut_new {h : HPc} {y : Nat} (e : h.cut = some y) : h.new = some y := by
  cases h <;> simp only [HPc.cut] at e <;> cases e <;> rfl
theorem cut_froz {h : HPc} {y : Nat} (e : h.cut = some y) : h.froz = none := by
  cases h <;> simp only [HPc.cut] at e <;> cases e <;> rfl
theorem new_cases {h : HPc} {y : Nat} (e : h.new = some y) :
    (∃ raw sp, h.froz = some (raw, sp, y)) ∨ h.cut = some y := by
  cases h <;> simp only [HPc.new] at e <;> cases e <;> first | exact .inl ⟨_, _, rfl⟩ | exact .inr rfl
theorem new_none {h : HPc} (e : h.new = none) : h.froz = none ∧ h.cut = none := by
  cases h <;> simp only [HPc.new] at e <;> first | exact ⟨rfl, rfl⟩ | cases e

structure Inv (s : St V) : Prop where
  word : ∀ x, s.hold x ≠ .free → NV.isLocked (s.leaf x).word = true ∧ NV.isDirty (s.leaf x).word = true
  thawed : ∀ x, (s.hold x).froz = none → PermOK (s.leaf x).b.perm
  frozen : ∀ x raw sp y, (s.hold x).froz = some (raw, sp, y) →
    (s.leaf x).b.perm = Freeze.freezeRaw raw ∧ PermOK raw ∧ 0 < sp ∧
    (sp < size 5 raw ∧ (s.leaf x).b.ikey (get 5 raw (sp - 1)) < (s.leaf x).b.ikey (get 5 raw sp)) ∧
    (s.leaf y).lo = (s.leaf x).b.ikey (get 5 raw sp) ∧ (s.leaf y).b.perm = Verif.Perm.initial 128 5 24 ∧
    sp ≤ (s.hold x).cnt ∧ (s.hold x).cnt ≤ size 5 raw ∧
    ∀ t, sp ≤ t → t < (s.hold x).cnt → (s.leaf y).b.ikey (t - sp) = (s.leaf x).b.ikey (get 5 raw t)
  gone : ∀ x raw sp y, (s.hold x).froz = some (raw, sp, y) → ∀ t, sp ≤ t → t < (s.hold x).cnt →
    (s.leaf x).b.cell (get 5 raw t) = .null
  sorted : ∀ x i j, i < j → j < size 5 (cur (s.leaf x).b (s.hold x)) →
    (s.leaf x).b.ikey (get 5 (cur (s.leaf x).b (s.hold x)) i) ≤ (s.leaf x).b.ikey (get 5 (cur (s.leaf x).b (s.hold x)) j)
  low : ∀ x, s.live x = true → ∀ i, i < size 5 (cur (s.leaf x).b (s.hold x)) →
    (s.leaf x).lo ≤ (s.leaf x).b.ikey (get 5 (cur (s.leaf x).b (s.hold x)) i)
  high : ∀ x, s.live x = true → (s.leaf x).nx ≠ 0 → ∀ i, i < size 5 (cur (s.leaf x).b (s.hold x)) →
    (s.leaf x).b.ikey (get 5 (cur (s.leaf x).b (s.hold x)) i) < (s.leaf (s.leaf x).nx).lo
  link : ∀ x, s.live x = true → (s.leaf x).nx ≠ 0 →
    s.live (s.leaf x).nx = true ∧ (s.leaf x).lo < (s.leaf (s.leaf x).nx).lo
  chain : ∀ x w, s.live x = true → s.live w = true → (s.leaf x).lo < (s.leaf w).lo →
    (s.leaf x).nx ≠ 0 ∧ (s.leaf (s.leaf x).nx).lo ≤ (s.leaf w).lo
  inj : ∀ x w, s.live x = true → s.live w = true → (s.leaf x).lo = (s.leaf w).lo → x = w
  zero : s.live 0 = false
  used : ∀ x, s.live x = true → s.used x = true
  busy : ∀ x, s.hold x ≠ .free → s.used x = true
  own : ∀ x, s.hold x ≠ .free → s.hold x ≠ .newborn → s.live x = true
  new : ∀ x y, (s.hold x).new = some y →
    s.live x = true ∧ y ≠ 0 ∧ s.live y = false ∧ s.used y = true ∧ s.hold y = .newborn ∧
    (s.leaf x).lo < (s.leaf y).lo ∧ ((s.leaf x).nx ≠ 0 → (s.leaf y).lo < (s.leaf (s.leaf x).nx).lo)
  uniq : ∀ x x' y, (s.hold x).new = some y → (s.hold x').new = some y → x = x'
  cut : ∀ x y, (s.hold x).cut = some y →
    (∀ i, i < size 5 (s.leaf x).b.perm → (s.leaf x).b.ikey (get 5 (s.leaf x).b.perm i) < (s.leaf y).lo) ∧
    (∀ i, i < size 5 (s.leaf y).b.perm → (s.leaf y).lo ≤ (s.leaf y).b.ikey (get 5 (s.leaf y).b.perm i) ∧
      ((s.leaf x).nx ≠ 0 → (s.leaf y).b.ikey (get 5 (s.leaf y).b.perm i) < (s.leaf (s.leaf x).nx).lo))
  jle : ∀ x lv raw sp y j, s.hold x = .clear lv raw sp y j → sp ≤ j
  set : ∀ x lv y, s.hold x = .publish lv y → (s.leaf y).nx = (s.leaf x).nx

theorem upd_if {α : Type} (f : Nat → α) (x : Nat) (v : α) (z : Nat) : upd f x v z = if z = x then v else f z := rfl

/-- The parts of a leaf that other leaves' conditions mention are unchanged: version, contents and next pointer of one
leaf change, its holder is not splitting. -/
theorem Inv.quiet {s s' : St V} (h : Inv s) {x : Nat} {l : LeafSt V} {h' : HPc}
    (hleaf : s'.leaf = upd s.leaf x l) (hhold : s'.hold = upd s.hold x h') (hlive : s'.live = s.live)
    (hused : s'.used = s.used)
    (hnx : l.nx = (s.leaf x).nx) (hlo : l.lo = (s.leaf x).lo)
    (hn : (s.hold x).new = none) (hn' : h'.new = none)
    (hnb : s.live x = true)
    (hw : h' ≠ .free → NV.isLocked l.word = true ∧ NV.isDirty l.word = true)
    (hp : PermOK l.b.perm)
    (hs : ∀ i j, i < j → j < size 5 l.b.perm → l.b.ikey (get 5 l.b.perm i) ≤ l.b.ikey (get 5 l.b.perm j))
    (hl : ∀ i, i < size 5 l.b.perm → l.lo ≤ l.b.ikey (get 5 l.b.perm i))
    (hh : l.nx ≠ 0 → ∀ i, i < size 5 l.b.perm → l.b.ikey (get 5 l.b.perm i) < (s.leaf l.nx).lo) : Inv s' := by
  obtain ⟨hfz, hct⟩ := new_none hn
  obtain ⟨hfz', hct'⟩ := new_none hn'
  have hL : ∀ z, z ≠ x → s'.leaf z = s.leaf z := fun z hz => by rw [hleaf, upd_ne _ _ _ hz]
  have hH : ∀ z, z ≠ x → s'.hold z = s.hold z := fun z hz => by rw [hhold, upd_ne _ _ _ hz]
  have hLx : s'.leaf x = l := by rw [hleaf, upd_same]
  have hHx : s'.hold x = h' := by rw [hhold, upd_same]
  have hlo' : ∀ z, (s'.leaf z).lo = (s.leaf z).lo := by
    intro z; by_cases hz : z = x
    · subst hz; rw [hLx, hlo]
    · rw [hL z hz]
  have hnx' : ∀ z, (s'.leaf z).nx = (s.leaf z).nx := by
    intro z; by_cases hz : z = x
    · subst hz; rw [hLx, hnx]
    · rw [hL z hz]
  have hcx : cur l.b h' = l.b.perm := cur_none hfz'
  refine ⟨?_, ?_, ?_, ?_, ?_, ?_, ?_, ?_, ?_, ?_, ?_, ?_, ?_, ?_, ?_, ?_, ?_, ?_, ?_⟩
  · intro z hz
    by_cases e : z = x
    · subst e; rw [hLx]; rw [hHx] at hz; exact hw hz
    · rw [hL z e]; rw [hH z e] at hz; exact h.word z hz
  · intro z hz
    by_cases e : z = x
    · subst e; rw [hLx]; exact hp
    · rw [hL z e]; rw [hH z e] at hz; exact h.thawed z hz
  · intro z raw sp y hz
    by_cases e : z = x
    · subst e; rw [hHx, hfz'] at hz; cases hz
    · rw [hH z e] at hz ⊢; rw [hL z e]
      have hy : y ≠ x := by
        rintro rfl
        have := (h.new z y (froz_new hz)).2.2.1
        rw [hnb] at this; cases this
      rw [hL y hy]; exact h.frozen z raw sp y hz
  · intro z raw sp y hz
    by_cases e : z = x
    · subst e; rw [hHx, hfz'] at hz; cases hz
    · rw [hH z e] at hz ⊢; rw [hL z e]; exact h.gone z raw sp y hz
  · intro z i j
    by_cases e : z = x
    · subst e; rw [hLx, hHx, hcx]; exact hs i j
    · rw [hL z e, hH z e]; exact h.sorted z i j
  · intro z hz i hi
    rw [hlive] at hz
    by_cases e : z = x
    · subst e; rw [hLx, hHx, hcx] at hi ⊢; exact hl i hi
    · rw [hL z e, hH z e] at hi ⊢; exact h.low z hz i hi
  · intro z hz hz0 i hi
    rw [hlive] at hz
    rw [hnx'] at hz0
    rw [hlo', hnx']
    by_cases e : z = x
    · subst e; rw [hLx, hHx, hcx] at hi ⊢
      rw [← hnx] at hz0 ⊢
      exact hh hz0 i hi
    · rw [hL z e, hH z e] at hi ⊢; exact h.high z hz hz0 i hi
  · intro z hz hz0
    rw [hlive] at hz ⊢
    rw [hnx'] at hz0; rw [hlo', hlo', hnx']
    exact h.link z hz hz0
  · intro z w hz hw' hlt
    rw [hlive] at hz hw'
    rw [hlo', hlo'] at hlt
    rw [hlo', hlo', hnx']; exact h.chain z w hz hw' hlt
  · intro z w hz hw' he
    rw [hlive] at hz hw'
    rw [hlo', hlo'] at he; exact h.inj z w hz hw' he
  · rw [hlive]; exact h.zero
  · rw [hlive, hused]; exact h.used
  · intro z hz
    rw [hused]
    by_cases e : z = x
    · subst e; exact h.used z hnb
    · rw [hH z e] at hz; exact h.busy z hz
  · intro z hz hz'
    rw [hlive]
    by_cases e : z = x
    · subst e; exact hnb
    · rw [hH z e] at hz hz'; exact h.own z hz hz'
  · intro z y hz
    by_cases e : z = x
    · subst e; rw [hHx, hn'] at hz; cases hz
    · rw [hH z e] at hz
      have := h.new z y hz
      have hy : y ≠ x := by
        rintro rfl
        have := this.2.2.1
        rw [hnb] at this; cases this
      rw [hlive, hused, hH y hy, hlo', hlo', hnx', hlo']; exact this
  · intro z z' y hz hz'
    by_cases e : z = x
    · subst e; rw [hHx, hn'] at hz; cases hz
    · by_cases e' : z' = x
      · subst e'; rw [hHx, hn'] at hz'; cases hz'
      · rw [hH _ e] at hz; rw [hH _ e'] at hz'; exact h.uniq z z' y hz hz'
  · intro z y hz
    by_cases e : z = x
    · subst e; rw [hHx, hct'] at hz; cases hz
    · rw [hH z e] at hz
      have hy : y ≠ x := by
        rintro rfl
        have := (h.new z y (cut_new hz)).2.2.1
        rw [hnb] at this; cases this
      rw [hL z e, hL y hy, hlo']; exact h.cut z y hz
  · intro z lv raw sp y j hz
    by_cases e : z = x
    · subst e; rw [hHx] at hz; rw [hz] at hn'; cases hn'
    · rw [hH z e] at hz; exact h.jle z lv raw sp y j hz
  · intro z lv y hz
    by_cases e : z = x
    · subst e
      rw [hHx] at hz; rw [hz] at hn'; cases hn'
    · rw [hH z e] at hz
      rw [hnx', hnx']; exact h.set z lv y hz

/-- The holder of `x` moves entries to the new leaf. -/
theorem Inv.mid {s s' : St V} (h : Inv s) {x y sp : Nat} {raw : BitVec 128} {lx ly : LeafSt V} {h' : HPc}
    (hz : (s.hold x).froz = some (raw, sp, y)) (hz' : h'.froz = some (raw, sp, y))
    (hleaf : s'.leaf = upd (upd s.leaf y ly) x lx) (hhold : s'.hold = upd s.hold x h') (hlive : s'.live = s.live)
    (hused : s'.used = s.used)
    (xp : lx.b.perm = (s.leaf x).b.perm) (xi : lx.b.ikey = (s.leaf x).b.ikey) (xw : lx.word = (s.leaf x).word)
    (xn : lx.nx = (s.leaf x).nx) (xl : lx.lo = (s.leaf x).lo)
    (yp : ly.b.perm = (s.leaf y).b.perm) (yw : ly.word = (s.leaf y).word)
    (yn : ly.nx = (s.leaf y).nx) (yl : ly.lo = (s.leaf y).lo)
    (hc : sp ≤ h'.cnt ∧ h'.cnt ≤ size 5 raw)
    (hcopy : ∀ t, sp ≤ t → t < h'.cnt → ly.b.ikey (t - sp) = (s.leaf x).b.ikey (get 5 raw t))
    (hgone : ∀ t, sp ≤ t → t < h'.cnt → lx.b.cell (get 5 raw t) = .null)
    (hjl : ∀ lv j, h' = .clear lv raw sp y j → sp ≤ j) : Inv s' := by
  have hnew := h.new x y (froz_new hz)
  have hf := h.frozen x raw sp y hz
  have hyx : y ≠ x := by
    rintro rfl
    have := hnew.1; rw [hnew.2.2.1] at this; cases this
  have hL : ∀ z, z ≠ x → z ≠ y → s'.leaf z = s.leaf z := fun z hz hzy => by
    rw [hleaf, upd_ne _ _ _ hz, upd_ne _ _ _ hzy]
  have hLx : s'.leaf x = lx := by rw [hleaf, upd_same]
  have hLy : s'.leaf y = ly := by rw [hleaf, upd_ne _ _ _ hyx, upd_same]
  have hH : ∀ z, z ≠ x → s'.hold z = s.hold z := fun z hz => by rw [hhold, upd_ne _ _ _ hz]
  have hHx : s'.hold x = h' := by rw [hhold, upd_same]
  have hlo' : ∀ z, (s'.leaf z).lo = (s.leaf z).lo := by
    intro z; by_cases e : z = x
    · subst e; rw [hLx, xl]
    · by_cases e' : z = y
      · subst e'; rw [hLy, yl]
      · rw [hL z e e']
  have hnx' : ∀ z, (s'.leaf z).nx = (s.leaf z).nx := by
    intro z; by_cases e : z = x
    · subst e; rw [hLx, xn]
    · by_cases e' : z = y
      · subst e'; rw [hLy, yn]
      · rw [hL z e e']
  have hpm : ∀ z, (s'.leaf z).b.perm = (s.leaf z).b.perm := by
    intro z; by_cases e : z = x
    · subst e; rw [hLx, xp]
    · by_cases e' : z = y
      · subst e'; rw [hLy, yp]
      · rw [hL z e e']
  have hwd : ∀ z, (s'.leaf z).word = (s.leaf z).word := by
    intro z; by_cases e : z = x
    · subst e; rw [hLx, xw]
    · by_cases e' : z = y
      · subst e'; rw [hLy, yw]
      · rw [hL z e e']
  have hik : ∀ z, z ≠ y → (s'.leaf z).b.ikey = (s.leaf z).b.ikey := by
    intro z e'; by_cases e : z = x
    · subst e; rw [hLx, xi]
    · rw [hL z e e']
  have hcur : ∀ z, cur (s'.leaf z).b (s'.hold z) = cur (s.leaf z).b (s.hold z) := by
    intro z
    by_cases e : z = x
    · subst e; rw [hHx, cur_some hz', cur_some hz]
    · rw [hH z e]; unfold cur; rw [hpm]
  have hyh : s.hold y = .newborn := hnew.2.2.2.2.1
  have hy0 : cur (s.leaf y).b (s.hold y) = Verif.Perm.initial 128 5 24 := by
    rw [hyh, cur_none rfl]; exact hf.2.2.2.2.2.1
  have hne : h' ≠ .free ∧ h' ≠ .newborn := by
    constructor <;> rintro rfl <;> cases hz'
  have hxne : s.hold x ≠ .free ∧ s.hold x ≠ .newborn := by
    constructor <;> intro e <;> rw [e] at hz <;> cases hz
  refine ⟨?_, ?_, ?_, ?_, ?_, ?_, ?_, ?_, ?_, ?_, ?_, ?_, ?_, ?_, ?_, ?_, ?_, ?_, ?_⟩
  · intro z e
    rw [hwd]
    by_cases e' : z = x
    · subst e'; exact h.word z hxne.1
    · rw [hH z e'] at e; exact h.word z e
  · intro z e
    rw [hpm]
    by_cases e' : z = x
    · subst e'; rw [hHx, hz'] at e; cases e
    · rw [hH z e'] at e; exact h.thawed z e
  · intro z raw1 sp1 y1 e
    rw [hpm, hpm, hlo']
    by_cases e' : z = x
    · subst e'
      rw [hHx, hz'] at e; cases e
      rw [hHx, hLy, hik z hyx.symm]
      exact ⟨hf.1, hf.2.1, hf.2.2.1, hf.2.2.2.1, hf.2.2.2.2.1, hf.2.2.2.2.2.1, hc.1, hc.2, hcopy⟩
    · rw [hH z e'] at e ⊢
      have hy1 : y1 ≠ y := by
        rintro rfl; exact e' (h.uniq z x y1 (froz_new e) (froz_new hz))
      have hzy : z ≠ y := by rintro rfl; rw [hyh] at e; cases e
      rw [hik z hzy, hik y1 hy1]
      exact h.frozen z raw1 sp1 y1 e
  · intro z raw1 sp1 y1 e
    by_cases e' : z = x
    · subst e'
      rw [hHx, hz'] at e; cases e
      rw [hHx, hLx]; exact hgone
    · rw [hH z e'] at e ⊢
      have hzy : z ≠ y := by rintro rfl; rw [hyh] at e; cases e
      rw [hL z e' hzy]; exact h.gone z raw1 sp1 y1 e
  · intro z i j hij hj
    rw [hcur] at hj ⊢
    by_cases e : z = y
    · subst e; rw [hy0, size_initial] at hj; omega
    · rw [hik z e]; exact h.sorted z i j hij hj
  · intro z hl i hi
    rw [hlive] at hl
    rw [hcur] at hi ⊢
    rw [hlo']
    have e : z ≠ y := by rintro rfl; rw [hnew.2.2.1] at hl; cases hl
    rw [hik z e]; exact h.low z hl i hi
  · intro z hl hn i hi
    rw [hlive] at hl
    rw [hnx'] at hn
    rw [hcur] at hi ⊢
    rw [hlo', hnx']
    have e : z ≠ y := by rintro rfl; rw [hnew.2.2.1] at hl; cases hl
    rw [hik z e]; exact h.high z hl hn i hi
  · intro z hl hn
    rw [hlive] at hl ⊢
    rw [hnx'] at hn; rw [hlo', hlo', hnx']
    exact h.link z hl hn
  · intro z w hl hw hlt
    rw [hlive] at hl hw
    rw [hlo', hlo'] at hlt
    rw [hlo', hlo', hnx']; exact h.chain z w hl hw hlt
  · intro z w hl hw he
    rw [hlive] at hl hw
    rw [hlo', hlo'] at he; exact h.inj z w hl hw he
  · rw [hlive]; exact h.zero
  · rw [hlive, hused]; exact h.used
  · intro z e
    rw [hused]
    by_cases e' : z = x
    · subst e'; exact h.used z hnew.1
    · rw [hH z e'] at e; exact h.busy z e
  · intro z e e1
    rw [hlive]
    by_cases e' : z = x
    · subst e'; exact hnew.1
    · rw [hH z e'] at e e1; exact h.own z e e1
  · intro z w e
    rw [hlive, hused, hlo', hlo', hnx', hlo']
    by_cases e' : z = x
    · subst e'
      rw [hHx, froz_new hz'] at e; cases e
      rw [hH y hyx]; exact hnew
    · rw [hH z e'] at e
      have := h.new z w e
      have hwx : w ≠ x := by
        rintro rfl
        have h2 := this.2.2.1; rw [hnew.1] at h2; cases h2
      rw [hH w hwx]; exact this
  · intro z z' w e e'
    have : ∀ q, (s'.hold q).new = (s.hold q).new := by
      intro q; by_cases hq : q = x
      · subst hq; rw [hHx, froz_new hz', froz_new hz]
      · rw [hH q hq]
    rw [this] at e e'; exact h.uniq z z' w e e'
  · intro z w e
    by_cases e' : z = x
    · subst e'; rw [hHx] at e; rw [cut_froz e] at hz'; cases hz'
    · rw [hH z e'] at e
      have hwy : w ≠ y := by
        rintro rfl; exact e' (h.uniq z x w (cut_new e) (froz_new hz))
      have hzy : z ≠ y := by rintro rfl; rw [hyh] at e; cases e
      rw [hpm, hpm, hlo', hik z hzy, hik w hwy, hnx', hlo']; exact h.cut z w e
  · intro z lv1 raw1 sp1 y1 j1 e
    by_cases e' : z = x
    · subst e'
      rw [hHx] at e
      have : (h').froz = some (raw1, sp1, y1) := by rw [e]; rfl
      rw [hz'] at this; cases this
      exact hjl _ _ e
    · rw [hH z e'] at e; exact h.jle z _ _ _ _ _ e
  · intro z lv w e
    by_cases e' : z = x
    · subst e'; rw [hHx] at e; rw [e] at hz'; cases hz'
    · rw [hH z e'] at e; rw [hnx', hnx']; exact h.set z lv w e

theorem initial_ok : PermOK (Verif.Tree.emptyLeaf : Leaf V).perm := permOK_initial

/-- The holder of `x` allocates `y` and freezes the permutation. -/
theorem Inv.freeze {s s' : St V} (h : Inv s) {x y sp : Nat} {raw : BitVec 128} {lv : NV.W} {lx ly : LeafSt V}
    (hx : s.hold x = .marked lv) (hp : (s.leaf x).b.perm = raw) (h0 : 0 < sp) (h1 : sp < size 5 raw)
    (hsep : (s.leaf x).b.ikey (get 5 raw (sp - 1)) < (s.leaf x).b.ikey (get 5 raw sp))
    (hu : s.used y = false) (hy0 : y ≠ 0)
    (hleaf : s'.leaf = upd (upd s.leaf y ly) x lx) (hhold : s'.hold = upd (upd s.hold y .newborn) x (.take lv raw sp y sp))
    (hlive : s'.live = s.live) (hused : s'.used = upd s.used y true)
    (xp : lx.b.perm = Freeze.freezeRaw raw) (xi : lx.b.ikey = (s.leaf x).b.ikey) (xw : lx.word = (s.leaf x).word)
    (xn : lx.nx = (s.leaf x).nx) (xl : lx.lo = (s.leaf x).lo)
    (yp : ly.b.perm = Verif.Perm.initial 128 5 24) (yw : NV.isLocked ly.word = true ∧ NV.isDirty ly.word = true)
    (yl : ly.lo = (s.leaf x).b.ikey (get 5 raw sp)) : Inv s' := by
  have hxl : s.live x = true := h.own x (by rw [hx]; simp) (by rw [hx]; simp)
  have hyl : s.live y = false := by
    cases e : s.live y with
    | false => rfl
    | true => rw [h.used y e] at hu; cases hu
  have hyh : s.hold y = .free := by
    by_contra e
    rw [h.busy y e] at hu; cases hu
  have hyx : y ≠ x := by rintro rfl; rw [hxl] at hyl; cases hyl
  have hfz : (s.hold x).froz = none := by rw [hx]; rfl
  have hpo : PermOK raw := by rw [← hp]; exact h.thawed x hfz
  have hcx0 : cur (s.leaf x).b (s.hold x) = raw := by rw [cur_none hfz, hp]
  have hL : ∀ z, z ≠ x → z ≠ y → s'.leaf z = s.leaf z := fun z hz hzy => by
    rw [hleaf, upd_ne _ _ _ hz, upd_ne _ _ _ hzy]
  have hLx : s'.leaf x = lx := by rw [hleaf, upd_same]
  have hLy : s'.leaf y = ly := by rw [hleaf, upd_ne _ _ _ hyx, upd_same]
  have hH : ∀ z, z ≠ x → z ≠ y → s'.hold z = s.hold z := fun z hz hzy => by
    rw [hhold, upd_ne _ _ _ hz, upd_ne _ _ _ hzy]
  have hHx : s'.hold x = .take lv raw sp y sp := by rw [hhold, upd_same]
  have hHy : s'.hold y = .newborn := by rw [hhold, upd_ne _ _ _ hyx, upd_same]
  have hlo' : ∀ z, z ≠ y → (s'.leaf z).lo = (s.leaf z).lo := by
    intro z e'; by_cases e : z = x
    · subst e; rw [hLx, xl]
    · rw [hL z e e']
  have hnx' : ∀ z, z ≠ y → (s'.leaf z).nx = (s.leaf z).nx := by
    intro z e'; by_cases e : z = x
    · subst e; rw [hLx, xn]
    · rw [hL z e e']
  have hik : ∀ z, z ≠ y → (s'.leaf z).b.ikey = (s.leaf z).b.ikey := by
    intro z e'; by_cases e : z = x
    · subst e; rw [hLx, xi]
    · rw [hL z e e']
  have hcur : ∀ z, z ≠ y → cur (s'.leaf z).b (s'.hold z) = cur (s.leaf z).b (s.hold z) := by
    intro z e'
    by_cases e : z = x
    · subst e; rw [hHx, hcx0]; rfl
    · rw [hH z e e', hL z e e']
  have hny : ∀ z, s.live z = true → z ≠ y := by rintro z e rfl; rw [hyl] at e; cases e
  have hnxy : ∀ z, s.live z = true → (s.leaf z).nx ≠ 0 → (s.leaf z).nx ≠ y := fun z e e' => hny _ (h.link z e e').1
  have hnewy : ∀ z w, (s.hold z).new = some w → z ≠ y ∧ w ≠ y := by
    intro z w e
    have := h.new z w e
    exact ⟨hny z this.1, by rintro rfl; rw [hu] at this; exact absurd this.2.2.2.1 (by simp)⟩
  have hys : size 5 (cur (s'.leaf y).b (s'.hold y)) = 0 := by
    rw [hHy, hLy, cur_none rfl, yp, size_initial]
  refine ⟨?_, ?_, ?_, ?_, ?_, ?_, ?_, ?_, ?_, ?_, ?_, ?_, ?_, ?_, ?_, ?_, ?_, ?_, ?_⟩
  · intro z e
    by_cases ey : z = y
    · subst ey; rw [hLy]; exact yw
    · by_cases ex : z = x
      · subst ex; rw [hLx, xw]; exact h.word z (by rw [hx]; simp)
      · rw [hL z ex ey]; rw [hH z ex ey] at e; exact h.word z e
  · intro z e
    by_cases ey : z = y
    · subst ey; rw [hLy, yp]; exact permOK_initial
    · by_cases ex : z = x
      · subst ex; rw [hHx] at e; cases e
      · rw [hL z ex ey]; rw [hH z ex ey] at e; exact h.thawed z e
  · intro z raw1 sp1 y1 e
    by_cases ey : z = y
    · subst ey; rw [hHy] at e; cases e
    · by_cases ex : z = x
      · subst ex; rw [hHx] at e ⊢; cases e
        rw [hLx, hLy, xp, xi]
        refine ⟨rfl, hpo, h0, ⟨h1, hsep⟩, yl, yp, Nat.le_refl _, Nat.le_of_lt h1, ?_⟩
        intro t ht ht'
        exact absurd ht' (by show ¬ t < sp; omega)
      · rw [hH z ex ey] at e ⊢
        have := hnewy z y1 (froz_new e)
        have hy1x : y1 ≠ x := by
          rintro rfl
          have h2 := (h.new z y1 (froz_new e)).2.2.1; rw [hxl] at h2; cases h2
        rw [hL z ex ey, hL y1 hy1x this.2]; exact h.frozen z raw1 sp1 y1 e
  · intro z raw1 sp1 y1 e
    by_cases ey : z = y
    · subst ey; rw [hHy] at e; cases e
    · by_cases ex : z = x
      · subst ex; rw [hHx] at e ⊢; cases e
        intro t ht ht'
        exact absurd ht' (by show ¬ t < sp; omega)
      · rw [hH z ex ey] at e ⊢
        rw [hL z ex ey]; exact h.gone z raw1 sp1 y1 e
  · intro z i j hij hj
    by_cases ey : z = y
    · subst ey; rw [hys] at hj; omega
    · rw [hcur z ey] at hj ⊢; rw [hik z ey]; exact h.sorted z i j hij hj
  · intro z hl i hi
    rw [hlive] at hl
    have ey := hny z hl
    rw [hcur z ey] at hi ⊢; rw [hik z ey, hlo' z ey]; exact h.low z hl i hi
  · intro z hl hn i hi
    rw [hlive] at hl
    have ey := hny z hl
    rw [hnx' z ey] at hn
    rw [hcur z ey] at hi ⊢; rw [hik z ey, hnx' z ey, hlo' _ (hnxy z hl hn)]; exact h.high z hl hn i hi
  · intro z hl hn
    rw [hlive] at hl ⊢
    have ey := hny z hl
    rw [hnx' z ey] at hn ⊢
    rw [hlo' z ey, hlo' _ (hnxy z hl hn)]; exact h.link z hl hn
  · intro z w hl hw hlt
    rw [hlive] at hl hw
    have ey := hny z hl
    rw [hlo' z ey, hlo' w (hny w hw)] at hlt
    have := h.chain z w hl hw hlt
    rw [hnx' z ey, hlo' _ (hnxy z hl this.1), hlo' w (hny w hw)]; exact this
  · intro z w hl hw he
    rw [hlive] at hl hw
    rw [hlo' z (hny z hl), hlo' w (hny w hw)] at he; exact h.inj z w hl hw he
  · rw [hlive]; exact h.zero
  · intro z hl
    rw [hlive] at hl
    rw [hused, upd_ne _ _ _ (hny z hl)]; exact h.used z hl
  · intro z e
    by_cases ey : z = y
    · subst ey; rw [hused, upd_same]
    · rw [hused, upd_ne _ _ _ ey]
      by_cases ex : z = x
      · subst ex; exact h.used z hxl
      · rw [hH z ex ey] at e; exact h.busy z e
  · intro z e e1
    rw [hlive]
    by_cases ey : z = y
    · subst ey; exact absurd hHy e1
    · by_cases ex : z = x
      · subst ex; exact hxl
      · rw [hH z ex ey] at e e1; exact h.own z e e1
  · intro z w e
    by_cases ey : z = y
    · subst ey; rw [hHy] at e; cases e
    · by_cases ex : z = x
      · subst ex
        rw [hHx] at e; cases e
        rw [hlive, hused, upd_same, hHy, hLx, hLy, xl, xn, yl]
        refine ⟨hxl, hy0, hyl, rfl, rfl, ?_, ?_⟩
        · have h2 := h.low z hxl 0 (by rw [hcx0]; omega)
          have h3 : (s.leaf z).b.ikey (get 5 raw 0) ≤ (s.leaf z).b.ikey (get 5 raw (sp - 1)) := by
            by_cases e : sp - 1 = 0
            · rw [e]
            · have h3 := h.sorted z 0 (sp - 1) (by omega) (by rw [hcx0]; omega)
              rw [hcx0] at h3; exact h3
          rw [hcx0] at h2; omega
        · intro hn
          rw [hlo' _ (hnxy z hxl hn)]
          have h2 := h.high z hxl hn sp (by rw [hcx0]; exact h1)
          rw [hcx0] at h2; exact h2
      · rw [hH z ex ey] at e
        have hw := hnewy z w e
        have hz := h.new z w e
        have hwx : w ≠ x := by
          rintro rfl
          have h2 := hz.2.2.1; rw [hxl] at h2; cases h2
        rw [hlive, hused, upd_ne _ _ _ hw.2, hH w hwx hw.2, hL z ex ey, hL w hwx hw.2]
        refine ⟨hz.1, hz.2.1, hz.2.2.1, hz.2.2.2.1, hz.2.2.2.2.1, hz.2.2.2.2.2.1, ?_⟩
        intro hn
        rw [hlo' _ (hnxy z hz.1 hn)]; exact hz.2.2.2.2.2.2 hn
  · intro z z' w e e'
    by_cases ey : z = y
    · subst ey; rw [hHy] at e; cases e
    by_cases ey' : z' = y
    · subst ey'; rw [hHy] at e'; cases e'
    by_cases ex : z = x <;> by_cases ex' : z' = x
    · rw [ex, ex']
    · subst ex; rw [hHx] at e; cases e
      rw [hH z' ex' ey'] at e'
      exact absurd rfl (hnewy z' _ e').2
    · subst ex'; rw [hHx] at e'; cases e'
      rw [hH z ex ey] at e
      exact absurd rfl (hnewy z _ e).2
    · rw [hH z ex ey] at e; rw [hH z' ex' ey'] at e'; exact h.uniq z z' w e e'
  · intro z w e
    by_cases ey : z = y
    · subst ey; rw [hHy] at e; cases e
    · by_cases ex : z = x
      · subst ex; rw [hHx] at e; cases e
      · rw [hH z ex ey] at e
        have hw := hnewy z w (cut_new e)
        have hz := h.new z w (cut_new e)
        have hwx : w ≠ x := by
          rintro rfl
          have h2 := hz.2.2.1; rw [hxl] at h2; cases h2
        have hc := h.cut z w e
        rw [hL z ex ey, hL w hwx hw.2]
        refine ⟨hc.1, fun i hi => ⟨(hc.2 i hi).1, fun hn => ?_⟩⟩
        rw [hlo' _ (hnxy z hz.1 hn)]; exact (hc.2 i hi).2 hn
  · intro z lv1 raw1 sp1 y1 j1 e
    by_cases ey : z = y
    · subst ey; rw [hHy] at e; cases e
    · by_cases ex : z = x
      · subst ex; rw [hHx] at e; cases e
      · rw [hH z ex ey] at e; exact h.jle z _ _ _ _ _ e
  · intro z lv1 w e
    by_cases ey : z = y
    · subst ey; rw [hHy] at e; cases e
    · by_cases ex : z = x
      · subst ex; rw [hHx] at e; cases e
      · rw [hH z ex ey] at e
        have hw := hnewy z w (by rw [e]; rfl)
        rw [hnx' w hw.2, hnx' z ey]; exact h.set z lv1 w e

/-- The holder of `x` truncates the permutation. -/
theorem Inv.unfreeze {s s' : St V} (h : Inv s) {x y sp : Nat} {raw : BitVec 128} {lv : NV.W} {lx ly : LeafSt V}
    (hx : s.hold x = .unfreeze lv raw sp y)
    (hleaf : s'.leaf = upd (upd s.leaf y ly) x lx) (hhold : s'.hold = upd s.hold x (.mark lv y)) (hlive : s'.live = s.live)
    (hused : s'.used = s.used)
    (xp : lx.b.perm = setSize 5 raw sp) (xi : lx.b.ikey = (s.leaf x).b.ikey) (xw : lx.word = (s.leaf x).word)
    (xn : lx.nx = (s.leaf x).nx) (xl : lx.lo = (s.leaf x).lo)
    (yp : ly.b.perm = makeSorted24 (size 5 raw - sp)) (yi : ly.b.ikey = (s.leaf y).b.ikey) (yw : ly.word = (s.leaf y).word)
    (yn : ly.nx = (s.leaf y).nx) (yl : ly.lo = (s.leaf y).lo) : Inv s' := by
  have hz : (s.hold x).froz = some (raw, sp, y) := by rw [hx]; rfl
  have hnew := h.new x y (froz_new hz)
  have hf := h.frozen x raw sp y hz
  obtain ⟨hf1, hpo, hsp0, hsp1, hlo1, hyp0, hc1, hc2, hcopy⟩ := hf
  have hcnt : (s.hold x).cnt = size 5 raw := by rw [hx]; rfl
  rw [hcnt] at hcopy
  have hsl := hpo.size_le
  have hyx : y ≠ x := by
    rintro rfl
    have := hnew.1; rw [hnew.2.2.1] at this; cases this
  have hL : ∀ z, z ≠ x → z ≠ y → s'.leaf z = s.leaf z := fun z hz hzy => by
    rw [hleaf, upd_ne _ _ _ hz, upd_ne _ _ _ hzy]
  have hLx : s'.leaf x = lx := by rw [hleaf, upd_same]
  have hLy : s'.leaf y = ly := by rw [hleaf, upd_ne _ _ _ hyx, upd_same]
  have hH : ∀ z, z ≠ x → s'.hold z = s.hold z := fun z hz => by rw [hhold, upd_ne _ _ _ hz]
  have hHx : s'.hold x = .mark lv y := by rw [hhold, upd_same]
  have hyh : s.hold y = .newborn := hnew.2.2.2.2.1
  have hlo' : ∀ z, (s'.leaf z).lo = (s.leaf z).lo := by
    intro z; by_cases e : z = x
    · subst e; rw [hLx, xl]
    · by_cases e' : z = y
      · subst e'; rw [hLy, yl]
      · rw [hL z e e']
  have hnx' : ∀ z, (s'.leaf z).nx = (s.leaf z).nx := by
    intro z; by_cases e : z = x
    · subst e; rw [hLx, xn]
    · by_cases e' : z = y
      · subst e'; rw [hLy, yn]
      · rw [hL z e e']
  have hwd : ∀ z, (s'.leaf z).word = (s.leaf z).word := by
    intro z; by_cases e : z = x
    · subst e; rw [hLx, xw]
    · by_cases e' : z = y
      · subst e'; rw [hLy, yw]
      · rw [hL z e e']
  have hik : ∀ z, (s'.leaf z).b.ikey = (s.leaf z).b.ikey := by
    intro z; by_cases e : z = x
    · subst e; rw [hLx, xi]
    · by_cases e' : z = y
      · subst e'; rw [hLy, yi]
      · rw [hL z e e']
  have hxsz : size 5 lx.b.perm = sp := by rw [xp]; exact Verif.Perm.size_setSize params24 _ (by omega)
  have hxg : ∀ i, i < 24 → get 5 lx.b.perm i = get 5 raw i := fun i hi => by
    rw [xp]; exact Verif.Perm.get_setSize params24 _ (by omega) hi
  have hysz : size 5 ly.b.perm = size 5 raw - sp := by rw [yp]; exact size_makeSorted _ (by omega)
  have hyg : ∀ i, i < size 5 raw - sp → ly.b.ikey (get 5 ly.b.perm i) = (s.leaf x).b.ikey (get 5 raw (sp + i)) := by
    intro i hi
    rw [yp, get_makeSorted _ (by omega) i hi, yi, ← hcopy (sp + i) (by omega) (by omega)]
    congr 1; omega
  have hcx0 : cur (s.leaf x).b (s.hold x) = raw := cur_some hz
  have hsort : ∀ i j, i < j → j < size 5 raw → (s.leaf x).b.ikey (get 5 raw i) ≤ (s.leaf x).b.ikey (get 5 raw j) := by
    have := h.sorted x; rw [hcx0] at this; exact this
  have hbelow : ∀ i, i < sp → (s.leaf x).b.ikey (get 5 raw i) < (s.leaf x).b.ikey (get 5 raw sp) := by
    intro i hi
    by_cases e : i = sp - 1
    · rw [e]; exact hsp1.2
    · exact Nat.lt_of_le_of_lt (hsort i (sp - 1) (by omega) (by omega)) hsp1.2
  have hcx : cur (s'.leaf x).b (s'.hold x) = lx.b.perm := by rw [hHx, hLx]; rfl
  have hcy : cur (s'.leaf y).b (s'.hold y) = ly.b.perm := by rw [hH y hyx, hyh, hLy]; rfl
  have hco : ∀ z, z ≠ x → z ≠ y → cur (s'.leaf z).b (s'.hold z) = cur (s.leaf z).b (s.hold z) := by
    intro z e e'; rw [hH z e, hL z e e']
  have hxne : s.hold x ≠ .free := by rw [hx]; simp
  refine ⟨?_, ?_, ?_, ?_, ?_, ?_, ?_, ?_, ?_, ?_, ?_, ?_, ?_, ?_, ?_, ?_, ?_, ?_, ?_⟩
  · intro z e
    rw [hwd]
    by_cases e' : z = x
    · subst e'; exact h.word z hxne
    · rw [hH z e'] at e; exact h.word z e
  · intro z e
    by_cases ex : z = x
    · subst ex; rw [hLx, xp]; exact permOK_setSize hpo (by omega)
    · by_cases ey : z = y
      · subst ey; rw [hLy, yp]; exact permOK_makeSorted _ (by omega)
      · rw [hL z ex ey]; rw [hH z ex] at e; exact h.thawed z e
  · intro z raw1 sp1 y1 e
    by_cases ex : z = x
    · subst ex; rw [hHx] at e; cases e
    · rw [hH z ex] at e ⊢
      have hzy : z ≠ y := by rintro rfl; rw [hyh] at e; cases e
      have hy1 : y1 ≠ y := by
        rintro rfl; exact ex (h.uniq z x y1 (froz_new e) (froz_new hz))
      have hy1x : y1 ≠ x := by
        rintro rfl
        have h2 := (h.new z y1 (froz_new e)).2.2.1; rw [hnew.1] at h2; cases h2
      rw [hL z ex hzy, hL y1 hy1x hy1]; exact h.frozen z raw1 sp1 y1 e
  · intro z raw1 sp1 y1 e
    by_cases ex : z = x
    · subst ex; rw [hHx] at e; cases e
    · rw [hH z ex] at e ⊢
      have hzy : z ≠ y := by rintro rfl; rw [hyh] at e; cases e
      rw [hL z ex hzy]; exact h.gone z raw1 sp1 y1 e
  · intro z i j hij hj
    by_cases ex : z = x
    · subst ex
      rw [hcx] at hj ⊢
      rw [hxsz] at hj
      rw [hik, hxg i (by omega), hxg j (by omega)]; exact hsort i j hij (by omega)
    · by_cases ey : z = y
      · subst ey
        rw [hcy] at hj ⊢
        rw [hysz] at hj
        rw [hLy, hyg i (by omega), hyg j (by omega)]; exact hsort _ _ (by omega) (by omega)
      · rw [hco z ex ey] at hj ⊢; rw [hik]; exact h.sorted z i j hij hj
  · intro z hl i hi
    rw [hlive] at hl
    rw [hlo']
    by_cases ex : z = x
    · subst ex
      rw [hcx] at hi ⊢
      rw [hxsz] at hi
      rw [hik, hxg i (by omega)]
      have := h.low z hl i (by rw [hcx0]; omega)
      rw [hcx0] at this; exact this
    · have ey : z ≠ y := by rintro rfl; rw [hnew.2.2.1] at hl; cases hl
      rw [hco z ex ey] at hi ⊢; rw [hik]; exact h.low z hl i hi
  · intro z hl hn i hi
    rw [hlive] at hl
    rw [hnx'] at hn
    rw [hlo', hnx', hik]
    by_cases ex : z = x
    · subst ex
      rw [hcx] at hi ⊢
      rw [hxsz] at hi
      rw [hxg i (by omega)]
      have := h.high z hl hn i (by rw [hcx0]; omega)
      rw [hcx0] at this; exact this
    · have ey : z ≠ y := by rintro rfl; rw [hnew.2.2.1] at hl; cases hl
      rw [hco z ex ey] at hi ⊢; exact h.high z hl hn i hi
  · intro z hl hn
    rw [hlive] at hl ⊢
    rw [hnx'] at hn; rw [hlo', hlo', hnx']
    exact h.link z hl hn
  · intro z w hl hw hlt
    rw [hlive] at hl hw
    rw [hlo', hlo'] at hlt
    rw [hlo', hlo', hnx']; exact h.chain z w hl hw hlt
  · intro z w hl hw he
    rw [hlive] at hl hw
    rw [hlo', hlo'] at he; exact h.inj z w hl hw he
  · rw [hlive]; exact h.zero
  · rw [hlive, hused]; exact h.used
  · intro z e
    rw [hused]
    by_cases e' : z = x
    · subst e'; exact h.used z hnew.1
    · rw [hH z e'] at e; exact h.busy z e
  · intro z e e1
    rw [hlive]
    by_cases e' : z = x
    · subst e'; exact hnew.1
    · rw [hH z e'] at e e1; exact h.own z e e1
  · intro z w e
    rw [hlive, hused, hlo', hlo', hnx', hlo']
    by_cases e' : z = x
    · subst e'
      rw [hHx] at e; cases e
      rw [hH y hyx]; exact hnew
    · rw [hH z e'] at e
      have := h.new z w e
      have hwx : w ≠ x := by
        rintro rfl
        have h2 := this.2.2.1; rw [hnew.1] at h2; cases h2
      rw [hH w hwx]; exact this
  · intro z z' w e e'
    have : ∀ q, (s'.hold q).new = (s.hold q).new := by
      intro q; by_cases hq : q = x
      · subst hq; rw [hHx, hx]; rfl
      · rw [hH q hq]
    rw [this] at e e'; exact h.uniq z z' w e e'
  · intro z w e
    rw [hnx', hlo', hlo']
    by_cases e' : z = x
    · subst e'; rw [hHx] at e; cases e
      rw [hLx, hLy]
      constructor
      · intro i hi
        rw [hxsz] at hi
        rw [hxg i (by omega), xi, hlo1]; exact hbelow i (by omega)
      · intro i hi
        rw [hysz] at hi
        rw [hyg i hi, hlo1]
        refine ⟨?_, fun hn => ?_⟩
        · by_cases h0 : i = 0
          · subst h0; exact Nat.le_refl _
          · exact hsort sp (sp + i) (by omega) (by omega)
        · have := h.high z hnew.1 hn (sp + i) (by rw [hcx0]; omega)
          rw [hcx0] at this; exact this
    · rw [hH z e'] at e
      have hwy : w ≠ y := by
        rintro rfl; exact e' (h.uniq z x w (cut_new e) (froz_new hz))
      have hzy : z ≠ y := by rintro rfl; rw [hyh] at e; cases e
      have hwx : w ≠ x := by
        rintro rfl
        have h2 := (h.new z w (cut_new e)).2.2.1; rw [hnew.1] at h2; cases h2
      rw [hL z e' hzy, hL w hwx hwy]; exact h.cut z w e
  · intro z lv1 raw1 sp1 y1 j1 e
    by_cases e' : z = x
    · subst e'; rw [hHx] at e; cases e
    · rw [hH z e'] at e; exact h.jle z _ _ _ _ _ e
  · intro z lv1 w e
    by_cases e' : z = x
    · subst e'; rw [hHx] at e; cases e
    · rw [hH z e'] at e; rw [hnx', hnx']; exact h.set z lv1 w e

/-- The holder of `x` marks its next pointer or fills in the new leaf's. -/
theorem Inv.cutStep {s s' : St V} (h : Inv s) {x y : Nat} {lx ly : LeafSt V} {h' : HPc}
    (hx : (s.hold x).cut = some y) (hx' : h'.cut = some y)
    (hleaf : s'.leaf = upd (upd s.leaf y ly) x lx) (hhold : s'.hold = upd s.hold x h') (hlive : s'.live = s.live)
    (hused : s'.used = s.used)
    (xb : lx.b = (s.leaf x).b) (xw : lx.word = (s.leaf x).word)
    (xn : lx.nx = (s.leaf x).nx) (xl : lx.lo = (s.leaf x).lo)
    (yb : ly.b = (s.leaf y).b) (yw : ly.word = (s.leaf y).word) (yl : ly.lo = (s.leaf y).lo)
    (hset : ∀ lv, h' = .publish lv y → ly.nx = (s.leaf x).nx) : Inv s' := by
  have hnew := h.new x y (cut_new hx)
  have hyx : y ≠ x := by
    rintro rfl
    have := hnew.1; rw [hnew.2.2.1] at this; cases this
  have hL : ∀ z, z ≠ x → z ≠ y → s'.leaf z = s.leaf z := fun z hz hzy => by
    rw [hleaf, upd_ne _ _ _ hz, upd_ne _ _ _ hzy]
  have hLx : s'.leaf x = lx := by rw [hleaf, upd_same]
  have hLy : s'.leaf y = ly := by rw [hleaf, upd_ne _ _ _ hyx, upd_same]
  have hH : ∀ z, z ≠ x → s'.hold z = s.hold z := fun z hz => by rw [hhold, upd_ne _ _ _ hz]
  have hHx : s'.hold x = h' := by rw [hhold, upd_same]
  have hyh : s.hold y = .newborn := hnew.2.2.2.2.1
  have hlo' : ∀ z, (s'.leaf z).lo = (s.leaf z).lo := by
    intro z; by_cases e : z = x
    · subst e; rw [hLx, xl]
    · by_cases e' : z = y
      · subst e'; rw [hLy, yl]
      · rw [hL z e e']
  have hnx' : ∀ z, z ≠ y → (s'.leaf z).nx = (s.leaf z).nx := by
    intro z e'; by_cases e : z = x
    · subst e; rw [hLx, xn]
    · rw [hL z e e']
  have hwd : ∀ z, (s'.leaf z).word = (s.leaf z).word := by
    intro z; by_cases e : z = x
    · subst e; rw [hLx, xw]
    · by_cases e' : z = y
      · subst e'; rw [hLy, yw]
      · rw [hL z e e']
  have hb : ∀ z, (s'.leaf z).b = (s.leaf z).b := by
    intro z; by_cases e : z = x
    · subst e; rw [hLx, xb]
    · by_cases e' : z = y
      · subst e'; rw [hLy, yb]
      · rw [hL z e e']
  have hfr : ∀ z, (s'.hold z).froz = (s.hold z).froz := by
    intro z; by_cases e : z = x
    · subst e; rw [hHx, cut_froz hx, cut_froz hx']
    · rw [hH z e]
  have hcur : ∀ z, cur (s'.leaf z).b (s'.hold z) = cur (s.leaf z).b (s.hold z) := by
    intro z; unfold cur; rw [hfr, hb]
  have hnw : ∀ q, (s'.hold q).new = (s.hold q).new := by
    intro q; by_cases hq : q = x
    · subst hq; rw [hHx, cut_new hx, cut_new hx']
    · rw [hH q hq]
  have hcu : ∀ q, (s'.hold q).cut = (s.hold q).cut := by
    intro q; by_cases hq : q = x
    · subst hq; rw [hHx, hx, hx']
    · rw [hH q hq]
  have hny : ∀ z, s.live z = true → z ≠ y := by rintro z e rfl; rw [hnew.2.2.1] at e; cases e
  refine ⟨?_, ?_, ?_, ?_, ?_, ?_, ?_, ?_, ?_, ?_, ?_, ?_, ?_, ?_, ?_, ?_, ?_, ?_, ?_⟩
  · intro z e
    rw [hwd]
    by_cases e' : z = x
    · subst e'; exact h.word z (by intro e; rw [e] at hx; cases hx)
    · rw [hH z e'] at e; exact h.word z e
  · intro z e; rw [hfr] at e; rw [hb]; exact h.thawed z e
  · intro z raw1 sp1 y1 e
    rw [hfr] at e
    have e' : z ≠ x := by rintro rfl; rw [cut_froz hx] at e; cases e
    rw [hb, hb, hlo', hH z e']; exact h.frozen z raw1 sp1 y1 e
  · intro z raw1 sp1 y1 e
    rw [hfr] at e
    have e' : z ≠ x := by rintro rfl; rw [cut_froz hx] at e; cases e
    rw [hb, hH z e']; exact h.gone z raw1 sp1 y1 e
  · intro z; rw [hcur, hb]; exact h.sorted z
  · intro z hl; rw [hlive] at hl; rw [hcur, hb, hlo']; exact h.low z hl
  · intro z hl; rw [hlive] at hl; rw [hcur, hb, hnx' z (hny z hl), hlo']; exact h.high z hl
  · intro z hl; rw [hlive] at hl ⊢; rw [hnx' z (hny z hl), hlo', hlo']; exact h.link z hl
  · intro z w hl hw; rw [hlive] at hl hw; rw [hnx' z (hny z hl), hlo', hlo', hlo']; exact h.chain z w hl hw
  · intro z w hl hw; rw [hlive] at hl hw; rw [hlo', hlo']; exact h.inj z w hl hw
  · rw [hlive]; exact h.zero
  · rw [hlive, hused]; exact h.used
  · intro z e
    rw [hused]
    by_cases e' : z = x
    · subst e'; exact h.used z hnew.1
    · rw [hH z e'] at e; exact h.busy z e
  · intro z e e1
    rw [hlive]
    by_cases e' : z = x
    · subst e'; exact hnew.1
    · rw [hH z e'] at e e1; exact h.own z e e1
  · intro z w e
    rw [hnw] at e
    have := h.new z w e
    have hwx : w ≠ x := by
      rintro rfl
      have h2 := this.2.2.1; rw [hnew.1] at h2; cases h2
    rw [hlive, hused, hlo', hlo', hnx' z (hny z this.1), hlo', hH w hwx]; exact this
  · intro z z' w e e'; rw [hnw] at e e'; exact h.uniq z z' w e e'
  · intro z w e
    rw [hcu] at e
    rw [hb, hb, hlo', hnx' z (hny z (h.new z w (cut_new e)).1), hlo']; exact h.cut z w e
  · intro z lv1 raw1 sp1 y1 j1 e
    by_cases e' : z = x
    · subst e'; rw [hHx] at e; rw [e] at hx'; cases hx'
    · rw [hH z e'] at e; exact h.jle z _ _ _ _ _ e
  · intro z lv w e
    by_cases e' : z = x
    · subst e'
      rw [hHx] at e
      have : w = y := by rw [e] at hx'; cases hx'; rfl
      subst this
      rw [hLy, hLx, xn]; exact hset lv e
    · rw [hH z e'] at e
      have hwy : w ≠ y := by
        rintro rfl; exact e' (h.uniq z x w (by rw [e]; rfl) (cut_new hx))
      have hz := h.new z w (by rw [e]; rfl)
      rw [hnx' w hwy, hnx' z (hny z hz.1)]; exact h.set z lv w e

/-- The holder of `x` links the new leaf. -/
theorem Inv.link' {s s' : St V} (h : Inv s) {x y : Nat} {lv : NV.W} {lx : LeafSt V}
    (hx : s.hold x = .publish lv y)
    (hleaf : s'.leaf = upd s.leaf x lx) (hhold : s'.hold = upd s.hold x (.unlock lv)) (hlive : s'.live = upd s.live y true)
    (hused : s'.used = s.used)
    (xb : lx.b = (s.leaf x).b) (xw : lx.word = (s.leaf x).word)
    (xn : lx.nx = y) (xl : lx.lo = (s.leaf x).lo) : Inv s' := by
  have hcx : (s.hold x).cut = some y := by rw [hx]; rfl
  have hnew := h.new x y (cut_new hcx)
  have hcut := h.cut x y hcx
  have hset := h.set x lv y hx
  obtain ⟨hxl, hy0, hyl, hyu, hyh, hlt, hhi⟩ := hnew
  have hyx : y ≠ x := by rintro rfl; rw [hxl] at hyl; cases hyl
  have hL : ∀ z, z ≠ x → s'.leaf z = s.leaf z := fun z hz => by rw [hleaf, upd_ne _ _ _ hz]
  have hLx : s'.leaf x = lx := by rw [hleaf, upd_same]
  have hH : ∀ z, z ≠ x → s'.hold z = s.hold z := fun z hz => by rw [hhold, upd_ne _ _ _ hz]
  have hHx : s'.hold x = .unlock lv := by rw [hhold, upd_same]
  have hlo' : ∀ z, (s'.leaf z).lo = (s.leaf z).lo := by
    intro z; by_cases e : z = x
    · subst e; rw [hLx, xl]
    · rw [hL z e]
  have hwd : ∀ z, (s'.leaf z).word = (s.leaf z).word := by
    intro z; by_cases e : z = x
    · subst e; rw [hLx, xw]
    · rw [hL z e]
  have hb : ∀ z, (s'.leaf z).b = (s.leaf z).b := by
    intro z; by_cases e : z = x
    · subst e; rw [hLx, xb]
    · rw [hL z e]
  have hfr : ∀ z, (s'.hold z).froz = (s.hold z).froz := by
    intro z; by_cases e : z = x
    · subst e; rw [hHx, hx]; rfl
    · rw [hH z e]
  have hcur : ∀ z, cur (s'.leaf z).b (s'.hold z) = cur (s.leaf z).b (s.hold z) := by
    intro z; unfold cur; rw [hfr, hb]
  have hcury : cur (s.leaf y).b (s.hold y) = (s.leaf y).b.perm := by rw [hyh]; rfl
  have hcurx : cur (s.leaf x).b (s.hold x) = (s.leaf x).b.perm := by rw [hx]; rfl
  have hlv : ∀ z, s'.live z = true → z = y ∨ s.live z = true := by
    intro z e
    rw [hlive] at e
    by_cases ez : z = y
    · exact .inl ez
    · rw [upd_ne _ _ _ ez] at e; exact .inr e
  have hlv' : ∀ z, s.live z = true → s'.live z = true := by
    intro z e
    rw [hlive]
    by_cases ez : z = y
    · subst ez; rw [upd_same]
    · rw [upd_ne _ _ _ ez]; exact e
  have hlvy : s'.live y = true := by rw [hlive, upd_same]
  have hny : ∀ z, s.live z = true → z ≠ y := by rintro z e rfl; rw [hyl] at e; cases e
  have hnw : ∀ q w, (s'.hold q).new = some w → q ≠ x ∧ (s.hold q).new = some w := by
    intro q w e
    by_cases hq : q = x
    · subst hq; rw [hHx] at e; cases e
    · rw [hH q hq] at e; exact ⟨hq, e⟩
  -- the new leaf lies strictly between `x` and every live leaf right of `x`
  have hbet : ∀ w, s.live w = true → (s.leaf x).lo < (s.leaf w).lo →
      (s.leaf x).nx ≠ 0 ∧ (s.leaf y).lo < (s.leaf (s.leaf x).nx).lo ∧ (s.leaf (s.leaf x).nx).lo ≤ (s.leaf w).lo := by
    intro w hw hl
    have := h.chain x w hxl hw hl
    exact ⟨this.1, hhi this.1, this.2⟩
  refine ⟨?_, ?_, ?_, ?_, ?_, ?_, ?_, ?_, ?_, ?_, ?_, ?_, ?_, ?_, ?_, ?_, ?_, ?_, ?_⟩
  · intro z e
    rw [hwd]
    by_cases e' : z = x
    · subst e'; exact h.word z (by rw [hx]; simp)
    · rw [hH z e'] at e; exact h.word z e
  · intro z e; rw [hfr] at e; rw [hb]; exact h.thawed z e
  · intro z raw1 sp1 y1 e
    rw [hfr] at e
    have e' : z ≠ x := by rintro rfl; rw [hx] at e; cases e
    rw [hb, hb, hlo', hH z e']; exact h.frozen z raw1 sp1 y1 e
  · intro z raw1 sp1 y1 e
    rw [hfr] at e
    have e' : z ≠ x := by rintro rfl; rw [hx] at e; cases e
    rw [hb, hH z e']; exact h.gone z raw1 sp1 y1 e
  · intro z; rw [hcur, hb]; exact h.sorted z
  · intro z hl
    rw [hcur, hb, hlo']
    rcases hlv z hl with rfl | hl
    · rw [hcury]; exact fun i hi => (hcut.2 i hi).1
    · exact h.low z hl
  · intro z hl
    rw [hcur, hb, hlo']
    rcases hlv z hl with rfl | hl
    · rw [hL z hyx, hcury, hset]; exact fun hn i hi => (hcut.2 i hi).2 hn
    · by_cases e : z = x
      · subst e; rw [hLx, xn, hcurx]; exact fun _ i hi => hcut.1 i hi
      · rw [hL z e]; exact h.high z hl
  · intro z hl
    rw [hlo', hlo']
    rcases hlv z hl with rfl | hl
    · rw [hL z hyx, hset]
      exact fun hn => ⟨hlv' _ (h.link x hxl hn).1, hhi hn⟩
    · by_cases e : z = x
      · subst e; rw [hLx, xn]; exact fun _ => ⟨hlvy, hlt⟩
      · rw [hL z e]; exact fun hn => ⟨hlv' _ (h.link z hl hn).1, (h.link z hl hn).2⟩
  · intro z w hl hw
    rw [hlo', hlo', hlo']
    rcases hlv z hl with rfl | hl
    · rw [hL z hyx, hset]
      rcases hlv w hw with rfl | hw
      · intro hh; omega
      · intro hh
        have := hbet w hw (by omega)
        exact ⟨this.1, this.2.2⟩
    · by_cases e : z = x
      · subst e; rw [hLx, xn]
        intro hh
        refine ⟨hy0, ?_⟩
        rcases hlv w hw with rfl | hw
        · exact Nat.le_refl _
        · have := hbet w hw hh; omega
      · rw [hL z e]
        rcases hlv w hw with rfl | hw
        · intro hh
          by_cases hc : (s.leaf z).lo < (s.leaf x).lo
          · have := h.chain z x hl hxl hc
            exact ⟨this.1, by omega⟩
          · by_cases hc2 : (s.leaf z).lo = (s.leaf x).lo
            · exact absurd (h.inj z x hl hxl hc2) e
            · have := hbet z hl (by omega); omega
        · exact h.chain z w hl hw
  · intro z w hl hw
    rw [hlo', hlo']
    have key : ∀ w, s.live w = true → (s.leaf y).lo ≠ (s.leaf w).lo := by
      intro w hw he
      have := hbet w hw (by omega); omega
    rcases hlv z hl with rfl | hl <;> rcases hlv w hw with rfl | hw
    · exact fun _ => rfl
    · exact fun he => absurd he (key w hw)
    · exact fun he => absurd he.symm (key z hl)
    · exact h.inj z w hl hw
  · rw [hlive, upd_ne _ _ _ hy0.symm]; exact h.zero
  · intro z hl
    rw [hused]
    rcases hlv z hl with rfl | hl
    · exact hyu
    · exact h.used z hl
  · intro z e
    rw [hused]
    by_cases e' : z = x
    · subst e'; exact h.used z hxl
    · rw [hH z e'] at e; exact h.busy z e
  · intro z e e1
    by_cases e' : z = x
    · subst e'; exact hlv' z hxl
    · rw [hH z e'] at e e1; exact hlv' z (h.own z e e1)
  · intro z w e
    obtain ⟨e', e⟩ := hnw z w e
    have := h.new z w e
    have hwx : w ≠ x := by
      rintro rfl
      have h2 := this.2.2.1; rw [hxl] at h2; cases h2
    have hwy : w ≠ y := by
      rintro rfl; exact e' (h.uniq z x w e (cut_new hcx))
    have hwl : s'.live w = false := by rw [hlive, upd_ne _ _ _ hwy]; exact this.2.2.1
    rw [hwl, hused, hlo', hlo', hL z e', hlo', hH w hwx]
    exact ⟨hlv' z this.1, this.2.1, rfl, this.2.2.2⟩
  · intro z z' w e e'
    exact h.uniq z z' w (hnw z w e).2 (hnw z' w e').2
  · intro z w e
    have e' : z ≠ x := by rintro rfl; rw [hHx] at e; cases e
    rw [hH z e'] at e
    rw [hb, hb, hlo', hL z e', hlo']; exact h.cut z w e
  · intro z lv1 raw1 sp1 y1 j1 e
    by_cases e' : z = x
    · subst e'; rw [hHx] at e; cases e
    · rw [hH z e'] at e; exact h.jle z _ _ _ _ _ e
  · intro z lv1 w e
    have e' : z ≠ x := by rintro rfl; rw [hHx] at e; cases e
    rw [hH z e'] at e
    have hwx : w ≠ x := by
      rintro rfl
      have h2 := (h.new z w (by rw [e]; rfl)).2.2.1; rw [hxl] at h2; cases h2
    rw [hL w hwx, hL z e']; exact h.set z lv1 w e

end Verif.Chain
