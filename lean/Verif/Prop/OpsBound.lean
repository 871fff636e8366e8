import Verif.Prop.Ops
import Verif.Proof.OpsBound
set_option linter.unusedSimpArgs false
set_option linter.unusedVariables false
/-!
# C62: the bound of a leaf

The code reads the bound of a leaf from its first slot (`ikey_bound`, leaf24.rs:302), the model has it in a field of its own, `lo`,
which is set when the leaf is made.  Here: in every execution of calls the two are the same, though slots are used again.
-/
namespace Verif.Ops
open Verif.Internode (upd upd_same upd_ne)
open Verif.Perm (size get)
open Verif.Spec (Bytes)
variable {V : Type} {fixed strict : Bool} {τ : Nat → St V} {β : Nat → Option (Act V)} {N : Nat}

/-- Leaf `x` can be reached in layer `L`. -/
def IsLeaf (s : St V) (L x : Nat) : Prop := s.w.f.made L = true ∧ (s.w.f.layer L).live x = true

/-- `ikey_bound`: leaf24.rs:302. -/
def ikeyBound (s : St V) (L x : Nat) : Nat := ((s.w.f.layer L).leaf x).b.ikey 0

/-- A published slot of leaf `x` has the slice `ik`; no slot is published while the permutation is frozen. -/
def Published (s : St V) (L x ik : Nat) : Prop :=
  Freeze.isFrozen ((s.w.f.layer L).leaf x).b.perm = false ∧
    ∃ j, j < size 5 ((s.w.f.layer L).leaf x).b.perm ∧ ((s.w.f.layer L).leaf x).b.ikey (get 5 ((s.w.f.layer L).leaf x).b.perm j) = ik

/-- **C62.** What `ikey_bound` reads in a leaf, other than the first one of its layer, is the bound the leaf was made with. -/
theorem C62_bound_in_slot (E : Exec fixed strict τ β) (C : Clean strict τ β N) {n : Nat} (hn : n ≤ N) {L x : Nat} (h : IsLeaf (τ n) L x)
    (hx : x ≠ 1) : ikeyBound (τ n) L x = (((τ n).w.f.layer L).leaf x).lo := (E.bound C hn h.1).live x h.2 hx

/-- **C62.** It is the same forever. -/
theorem C62_bound_is_fixed (E : Exec fixed strict τ β) (C : Clean strict τ β N) {m n : Nat} (hmn : m ≤ n) (hn : n ≤ N) {L x : Nat}
    (h : IsLeaf (τ m) L x) (hx : x ≠ 1) : IsLeaf (τ n) L x ∧ ikeyBound (τ n) L x = ikeyBound (τ m) L x := by
  obtain ⟨h1, h2, h3⟩ := E.bound_stays C hmn hn h.1 h.2
  refine ⟨⟨h1, h2⟩, ?_⟩
  rw [C62_bound_in_slot E C hn ⟨h1, h2⟩ hx, C62_bound_in_slot E C (by omega) h hx, h3]

/-- **C62.** The keys of the leaf are not below it, and those of the leaves with a smaller bound, and of the first leaf, are. -/
theorem C62_bound_separates (E : Exec fixed strict τ β) (C : Clean strict τ β N) {n : Nat} (hn : n ≤ N) {L x ik : Nat} (h : IsLeaf (τ n) L x)
    (hx : x ≠ 1) : (Published (τ n) L x ik → ikeyBound (τ n) L x ≤ ik) ∧
      ∀ w, IsLeaf (τ n) L w → w = 1 ∨ ikeyBound (τ n) L w < ikeyBound (τ n) L x → Published (τ n) L w ik → ik < ikeyBound (τ n) L x := by
  have I : Chain.Inv ((τ n).w.f.layer L) := ((E.whole.ok C n hn).ok L h.1).C
  have e := C62_bound_in_slot E C hn h hx
  refine ⟨fun ⟨hf, j, hj, ej⟩ => ?_, fun w hw hlt ⟨hf, j, hj, ej⟩ => ?_⟩
  · rw [e, ← ej]
    have := I.low x h.2 j
    rw [Chain.cur_none (Chain.not_frozen_froz I hf)] at this
    exact this hj
  · have hlt : (((τ n).w.f.layer L).leaf w).lo < (((τ n).w.f.layer L).leaf x).lo := by
      by_cases hw1 : w = 1
      · have h0 := E.lowest C hn h.1
        rw [hw1, h0]
        rcases Nat.eq_zero_or_pos (((τ n).w.f.layer L).leaf x).lo with g | g
        · have := I.inj x w h.2 hw.2 (by rw [g, hw1, h0])
          exact absurd (this.trans hw1) hx
        · exact g
      · rcases hlt with g | g
        · exact absurd g hw1
        · rw [e, C62_bound_in_slot E C hn hw hw1] at g; exact g
    obtain ⟨g1, g2⟩ := I.chain w x hw.2 h.2 hlt
    have := I.high w hw.2 g1 j
    rw [Chain.cur_none (Chain.not_frozen_froz I hf)] at this
    have := this hj
    rw [e, ← ej]
    omega

/-! ## An execution with a split -/

/-- Thread 0 inserts one key. -/
def insertOne (n : UInt8) : List (Act Nat) := .call 0 (.insert (key8 n) n.toNat) :: List.replicate 16 (.run 0 2 [])

def insertMany : Nat → List (Act Nat)
  | 0 => []
  | n + 1 => insertMany n ++ insertOne (UInt8.ofNat (2 * n + 1))

/-- Thread 0 fills the only leaf with 24 keys; the next insert splits it. -/
def filled : List (Act Nat) := insertMany 24 ++ .call 0 (.insert (key8 100) 100) :: List.replicate 64 (.run 0 2 [])

/-- All steps of a trace, in one go. -/
def checkAll (fixed strict : Bool) : St V → List (Act V) → Bool
  | _, [] => true
  | s, a :: as => Whole.checkStep fixed strict s.w (onTree s a) && checkAll fixed strict (act fixed strict s a) as

theorem checkAll_spec {s : St V} {as : List (Act V)} (h : checkAll fixed strict s as = true) {n : Nat} (hn : n < as.length) :
    Whole.checkStep fixed strict (trace fixed strict s as n).w (moves (trace fixed strict s as) (fun n => as[n]?) n) = true := by
  induction as generalizing s n with
  | nil => exact absurd hn (Nat.not_lt_zero _)
  | cons a as ih =>
    simp only [checkAll, Bool.and_eq_true] at h
    cases n with
    | zero => exact h.1
    | succ n => exact ih h.2 (by simpa using hn)

theorem clean_trace {as : List (Act Nat)} (h : checkAll fixed strict empty as = true) :
    Clean strict (trace fixed strict empty as) (fun n => as[n]?) as.length :=
  Whole.clean_of (fixed := fixed) (trace_exec as).whole fun n hn => checkAll_spec h hn

set_option maxRecDepth 100000 in
theorem filled_clean : Clean false (trace false false empty filled) (fun n => filled[n]?) 473 :=
  clean_trace (as := filled) (by decide +kernel)

set_option maxRecDepth 100000 in
/-- Leaf 2 is made by the split, its bound is the slice of the twelfth key, and after that the last key is stored in it.  The slots
of the first leaf beyond its new size are free. -/
theorem C62_witness :
    let τ := trace false false empty filled
    Exec false false τ (fun n => filled[n]?) ∧ Clean false τ (fun n => filled[n]?) 473 ∧ IsLeaf (τ 450) 0 2 ∧
      ikeyBound (τ 473) 0 2 = (Key.mk' (key8 25)).ikey ∧ Published (τ 473) 0 2 (Key.mk' (key8 100)).ikey ∧
      Published (τ 473) 0 1 (Key.mk' (key8 23)).ikey := by
  refine ⟨trace_exec _, filled_clean, ⟨?_, ?_⟩, ?_, ⟨?_, 12, ?_, ?_⟩, ?_, 11, ?_, ?_⟩
  all_goals decide +kernel

end Verif.Ops
