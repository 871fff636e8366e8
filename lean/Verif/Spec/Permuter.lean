/-!
# Specification of a slot permutation

A permuter is specified as a list of all `W` slot numbers, the first `size` of which
are in use (in key order) and the rest of which are free.
-/
namespace Verif.Spec

/-- Abstract permuter: a slot list and a size. -/
structure PermList where
  slots : List Nat
  size : Nat
  deriving DecidableEq, Repr

/-- Every slot `0..W-1` exactly once, and a size within range. -/
def PermList.Valid (W : Nat) (p : PermList) : Prop :=
  p.slots.Perm (List.range W) ∧ p.size ≤ W

/-- Abstract operations: what the documentation of each call promises. -/
inductive PermOp where
  /-- Take the last (free) slot and put it at position `i`. -/
  | insertFromBack (i : Nat)
  /-- Take the slot at `i` out of the used region and put it last. -/
  | removeToBack (i : Nat)
  /-- Take the slot at `i` out of the used region and put it first in the free region. -/
  | remove (i : Nat)
  /-- Swap two positions. -/
  | exchange (i j : Nat)
  /-- Rotate positions `i..` left by `j - i`. -/
  | rotate (i j : Nat)
  /-- Swap two free positions. -/
  | swapFreeSlots (i j : Nat)
  /-- Change the size only. -/
  | setSize (n : Nat)
  deriving DecidableEq, Repr

/-- The preconditions stated by the API (`debug_assert!`s). -/
def PermOp.Legal (W : Nat) (p : PermList) : PermOp → Prop
  | .insertFromBack i => i ≤ p.size ∧ p.size < W
  | .removeToBack i => i < p.size
  | .remove i => i < p.size
  | .exchange i j => i < W ∧ j < W
  | .rotate i j => i ≤ j ∧ j ≤ W
  | .swapFreeSlots i j => p.size ≤ i ∧ p.size ≤ j ∧ i < W ∧ j < W
  | .setSize n => n ≤ W

/-- Swap positions `i` and `j` of a list. -/
def swapAt (l : List Nat) (i j : Nat) : List Nat :=
  (l.set i (l.getD j 0)).set j (l.getD i 0)

/-- Effect of each operation on the abstract permuter. -/
def PermOp.apply (W : Nat) (p : PermList) : PermOp → PermList
  | .insertFromBack i =>
      { slots := (p.slots.dropLast).insertIdx i (p.slots.getD (W - 1) 0), size := p.size + 1 }
  | .removeToBack i =>
      { slots := p.slots.eraseIdx i ++ [p.slots.getD i 0], size := p.size - 1 }
  | .remove i =>
      { slots := (p.slots.eraseIdx i).insertIdx (p.size - 1) (p.slots.getD i 0)
        size := p.size - 1 }
  | .exchange i j => { p with slots := swapAt p.slots i j }
  | .rotate i j =>
      { p with slots := p.slots.take i ++ p.slots.drop j ++ (p.slots.drop i).take (j - i) }
  | .swapFreeSlots i j => { p with slots := swapAt p.slots i j }
  | .setSize n => { p with size := n }

end Verif.Spec

namespace Verif.Spec

/-- A sequence of operations each legal in the state it is applied to. -/
def LegalRun (W : Nat) : PermList → List PermOp → Prop
  | _, [] => True
  | p, op :: ops => op.Legal W p ∧ LegalRun W (op.apply W p) ops

/-- Effect of a sequence of operations. -/
def applyAll (W : Nat) : PermList → List PermOp → PermList
  | p, [] => p
  | p, op :: ops => applyAll W (op.apply W p) ops

/-- The empty permuter: no slot in use; slot 0 is handed out first, then 1, .. -/
def PermList.empty (W : Nat) : PermList := ⟨(List.range W).reverse, 0⟩

/-- `n` slots in use in increasing order; the next slot handed out is `n`. -/
def PermList.sorted (W n : Nat) : PermList :=
  ⟨List.range n ++ ((List.range W).drop n).reverse, n⟩

end Verif.Spec
