import Verif.Model.BagRace
/-!
# Specification for readers of suffixes: what a slot holds, and when
-/
namespace Verif.BagRace
open Verif.Spec.Suffix (LMap)
open Verif.Spec (Bytes)

/-- The leaf before any call. -/
def empty : LMap := ⟨fun _ => none, fun _ => 0⟩

/-- Slot of the call in progress, or of the last one. -/
def St.target (s : St) : Option Nat := s.ops.getLast?.bind slotOf

/-- No call on slot `x` is in progress. -/
def St.Settled (s : St) (x : Nat) : Prop := s.todo ≠ [] → s.target ≠ some x

/-- Suffixes are stored only in slots that hold none, as the tree does: new entries go to slots that were never used or were cleared by
a split (leaf24.rs:1319-1322, 1396-1399). -/
def Fresh (ops : List Suffix.LOp) : Prop :=
  ∀ pre s x c g post, ops = pre ++ .assign s x c g :: post → (Spec.Suffix.lrun empty pre).suf s = none

/-- An execution: any number of steps of any threads in any order. -/
structure Exec (lenFirst : Bool) (σ : Nat → St) : Prop where
  init : σ 0 = St.init
  step : ∀ n, σ (n + 1) = σ n ∨ Step lenFirst (σ n) (σ (n + 1))

/-- The bags stay below 4 GiB. -/
def Small (σ : Nat → St) (n : Nat) : Prop := Spec.Suffix.ltotal (σ n).ops < 2 ^ 32 - 1

/-- From step `a` on thread `i` reads the suffix of slot `x`, and it has not ended before step `n`. -/
structure Reading (σ : Nat → St) (i x a n : Nat) : Prop where
  le : a ≤ n
  start : (σ a).rd i = .klx x
  going : ∀ j, a ≤ j → j < n → ∀ r, (σ j).rd i ≠ .done x r

/-- Meanwhile no call stores anything in slot `x`. -/
def Calm (σ : Nat → St) (x a n : Nat) : Prop := ∀ j, a ≤ j → j ≤ n → (σ j).Settled x

/-- Thread `i` is about to read a plain location that the lock holder is about to write. -/
def Racy (s : St) (i : Nat) (l : Loc) : Prop := ∃ m ms, s.todo = m :: ms ∧ (s.rd i).loc = some l ∧ m.loc s.L = some l

end Verif.BagRace
