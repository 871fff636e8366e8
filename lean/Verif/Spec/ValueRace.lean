import Verif.Model.ValueRace
/-!
# What is said about values shared by threads
-/
namespace Verif.ValueRace
variable {V : Type}

/-- An empty tree, and nobody has anything. -/
structure Start (s : St V) : Prop where
  cell : ∀ x t, s.cell x t = none
  refs : ∀ i, s.refs i = []
  look : ∀ i, s.look i = none
  new : ∀ i, s.new i = none
  old : ∀ i, s.old i = none
  handle : ∀ h, s.handle h = none
  bin : ∀ n, s.bin n = none
  strong : ∀ p, s.strong p = 0
  data : ∀ p, s.data p = none
  used : ∀ p, s.used p = false
  drops : ∀ p, s.drops p = 0
  bad : s.bad = false

/-- An execution. -/
structure Exec (σ : Nat → St V) (β : Nat → Act V) : Prop where
  start : Start (σ 0)
  steps : ∀ n, σ (n + 1) = act (σ n) (β n)

/-- The calls of the tree are given guards of this tree: a guard under which a value is loaded or retired is one of its own. -/
def Proper (s : St V) : Act V → Prop
  | .load i _ _ => s.home i = true
  | .retire i _ => s.home i = true
  | _ => True

/-- Somebody is responsible for the pointer `p`: it is in a slot, in the hands of an insert, retired, or an `Arc` outside the tree. -/
def Owned (s : St V) (p : Nat) : Prop :=
  (∃ x t, s.cell x t = some p) ∨ (∃ i, s.new i = some p ∨ s.old i = some p) ∨ (∃ n w, s.bin n = some (p, w)) ∨ ∃ h, s.handle h = some p

end Verif.ValueRace
