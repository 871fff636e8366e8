import Verif.Model.Tree
import Mathlib.Algebra.BigOperators.Group.Finset.Basic
/-!
Specification vocabulary for the storage of suffixes (the bytes of a key beyond the chunk of eight that its leaf compares).
-/
namespace Verif.Tree
open Verif.Perm (size get)
variable {V : Type}

/-- Slot `s` of a leaf holds an entry. -/
def Used (b : Leaf V) (s : Nat) : Prop := ∃ i, i < size 5 b.perm ∧ get 5 b.perm i = s

/-- A leaf stores a suffix for exactly those entries whose length code (64) says that they have one. -/
def CleanLeaf (b : Leaf V) : Prop := ∀ s, b.ksuf s ≠ none ↔ Used b s ∧ b.klx s = 64

/-- From `t` to `t'` no stored suffix is written over: a slot that holds a suffix afterwards held the same one before, or none. -/
def NoOverwrite (t t' : Tree V) : Prop :=
  ∀ p s x, (t'.body p).ksuf s = some x → (t.body p).ksuf s = none ∨ (t.body p).ksuf s = some x

/-- Number of suffixes a leaf stores, over its 24 slots. -/
def sufs (b : Leaf V) : Nat := ∑ s ∈ Finset.range 24, if (b.ksuf s).isSome then 1 else 0

/-- Number of suffixes stored in all leaves of a tree. -/
def suffixCount (t : Tree V) : Nat := ∑ p ∈ Finset.range t.fresh, sufs (t.body p)

end Verif.Tree
