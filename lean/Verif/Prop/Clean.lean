import Verif.Proof.TreeCleanCount
import Verif.Prop.TreeWitness
set_option linter.unusedSimpArgs false
set_option linter.unusedVariables false
set_option maxRecDepth 100000
/-!
# What the tree keeps of long keys (C55)

Vocabulary: `Spec/Clean.lean`.  The sequential tree is `Model/Tree.lean`, the concurrent one `Model/TreeRace.lean`
(`fixed = false` is the code).  No hypothesis on the keys: the theorems hold also after splits that lose entries.
-/
namespace Verif.Threads
open Verif.Spec
open Verif.Tree
variable {V : Type}

theorem exec_clean {fixed : Bool} {σ : Nat → St V} {α : Nat → Act V} (E : Exec fixed σ α) (n : Nat) : CT (σ n).tree := by
  induction n with
  | zero => rw [E.start]; exact ct_empty
  | succ n ih => rw [E.next n]; exact (act_clean _ ih).1

/-- **C55.** At any time, whatever the threads do, every node stores a suffix for exactly those of its entries that have one:
none is left of a key that has moved to another node or to a sublayer, and none is missing. -/
theorem C55_stored_exactly {fixed : Bool} {σ : Nat → St V} {α : Nat → Act V} (E : Exec fixed σ α) (n p : Nat) :
    CleanLeaf ((σ n).tree.body p) :=
  ((exec_clean E n).body p).clean

/-- **C55.** No step of any thread writes over a stored suffix: it stays or is dropped. This is the hypothesis `Fresh` of
`C54_no_panic_partial` for the tree: suffixes are stored only in slots that hold none. -/
theorem C55_never_overwritten {fixed : Bool} {σ : Nat → St V} {α : Nat → Act V} (E : Exec fixed σ α) (n : Nat) :
    NoOverwrite (σ n).tree (σ (n + 1)).tree := by
  rw [E.next n]
  exact (act_clean _ (exec_clean E n)).2

/-- **C55.** The tree stores at most one suffix per key: never more than `len()`. -/
theorem C55_at_most_len {fixed : Bool} {σ : Nat → St V} {α : Nat → Act V} (E : Exec fixed σ α) (n : Nat) :
    suffixCount (σ n).tree ≤ len (σ n).tree := by
  induction n with
  | zero => rw [E.start, count_empty]; exact Nat.zero_le _
  | succ n ih =>
    rw [E.next n]
    have := act_count (fixed := fixed) (α n) (exec_clean E n)
    unfold len at *
    omega

theorem runFrom_clean {t t' : Tree V} {h : List (Bytes × V)} {os : List (Option V)} (ht : CT t) (hc : suffixCount t ≤ len t)
    (e : runFrom t h = .ok (t', os)) : CT t' ∧ suffixCount t' ≤ len t' := by
  induction h generalizing t os with
  | nil => cases e; exact ⟨ht, hc⟩
  | cons kv h ih =>
    obtain ⟨k, v⟩ := kv
    simp only [runFrom, bind, Except.bind] at e
    cases h1 : insert t k v with
    | error x => rw [h1] at e; cases e
    | ok y =>
      rw [h1] at e
      obtain ⟨t1, o⟩ := y
      simp only at e
      cases h2 : runFrom t1 h with
      | error x => rw [h2] at e; cases e
      | ok z =>
        obtain ⟨t2, os'⟩ := z
        rw [h2] at e
        cases e
        have hi : CT t1 ∧ suffixCount t1 + t.count ≤ suffixCount t + t1.count := by
          unfold Verif.Tree.insert at h1
          split at h1
          · cases h1
          · exact ⟨insertLoop_clean _ ht h1, insertLoop_count _ ht h1⟩
        exact ih hi.1 (by have := hi.2; unfold len at *; omega) h2

/-- **C55**, one thread. -/
theorem C55_sequential {h : List (Bytes × V)} {t : Tree V} {os : List (Option V)} (e : runFrom empty h = .ok (t, os)) :
    (∀ p, CleanLeaf (t.body p)) ∧ suffixCount t ≤ len t := by
  obtain ⟨h1, h2⟩ := runFrom_clean ct_empty (by rw [count_empty]; exact Nat.zero_le _) e
  exact ⟨fun p => (h1.body p).clean, h2⟩

/-- Thirty long keys, of which the last shares its first two chunks with the one before. -/
def longKeys : List (Bytes × Nat) :=
  (List.range 28).map (fun i => (List.replicate 8 i.toUInt8 ++ [1], i)) ++
    [(List.replicate 18 100, 28), (List.replicate 17 100, 29)]

def sufsL (b : Leaf V) : Nat := ((List.range 24).map fun s => if (b.ksuf s).isSome then 1 else 0).sum
def countL (t : Tree V) : Nat := ((List.range t.fresh).map fun p => sufsL (t.body p)).sum

theorem countL_eq (t : Tree V) : countL t = suffixCount t := by
  unfold countL suffixCount
  have h : ∀ (n : Nat) (f : Nat → Nat), ((List.range n).map f).sum = ∑ x ∈ Finset.range n, f x := by
    intro n f
    induction n with
    | zero => rfl
    | succ n ih => rw [List.range_succ, List.map_append, List.sum_append, ih, Finset.sum_range_succ]; simp
  rw [h]
  refine Finset.sum_congr rfl fun p _ => ?_
  exact h 24 _

/-- The hypothesis of `C55_sequential` is met: after thirty inserts with a split and two sublayers, 28 suffixes are stored. -/
theorem C55_witness : ∃ t os, runFrom empty longKeys = .ok (t, os) ∧ len t = 30 ∧ suffixCount t = 28 := by
  have h : (match runFrom empty longKeys with
    | .ok x => decide (len x.1 = 30) && decide (countL x.1 = 28)
    | .error _ => false) = true := by decide +kernel
  split at h
  · next x e =>
    simp only [Bool.and_eq_true, decide_eq_true_eq, countL_eq] at h
    exact ⟨x.1, x.2, e, h.1, h.2⟩
  · cases h

end Verif.Threads
