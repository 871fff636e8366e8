import Verif.Model.LeafRace
/-!
# What a leaf says about a key

Specification used by the statements about concurrent readers of a leaf.  It does not mention any search loop.
-/
namespace Verif.Race
open Verif.Perm (size get)
open Verif.Tree (Leaf)
variable {V : Type}

/-- Slot `s` carries exactly the key `k`, as seen from this layer. -/
def SlotIs (b : Leaf V) (s : Nat) (k : Key) : Prop :=
  b.ikey s = k.ikey ∧
    if k.hasSuffix then b.klx s = 64 ∧ b.ksuf s = some k.suffix else b.klx s = k.currentLen

/-- Slot `s` is a sublayer that `k` belongs to. -/
def SlotLeads (b : Leaf V) (s : Nat) (k : Key) : Prop :=
  b.ikey s = k.ikey ∧ 128 ≤ b.klx s ∧ k.hasSuffix = true

/-- The leaf says `r` about key `k`: one of its published slots carries the key and this value, or leads to the
sublayer `q`, or no published slot that is in use carries the key or leads to it.  A leaf never says `misread`. -/
def Sees (b : Leaf V) (k : Key) : Out V → Prop
  | .value v => ∃ j, j < size 5 b.perm ∧ SlotIs b (get 5 b.perm j) k ∧ b.cell (get 5 b.perm j) = .val v
  | .descend q => ∃ j, j < size 5 b.perm ∧ SlotLeads b (get 5 b.perm j) k ∧ b.cell (get 5 b.perm j) = .layer q
  | .absent => ∀ j, j < size 5 b.perm → b.cell (get 5 b.perm j) ≠ .null →
      ¬ SlotIs b (get 5 b.perm j) k ∧ ¬ SlotLeads b (get 5 b.perm j) k
  | .misread => False

/-- Two keys are the same from this layer on. -/
def SameKey (k k' : Key) : Prop :=
  k.ikey = k'.ikey ∧ k.hasSuffix = k'.hasSuffix ∧
    if k.hasSuffix then k.suffix = k'.suffix else k.currentLen = k'.currentLen

end Verif.Race
