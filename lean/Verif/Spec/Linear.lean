import Verif.Spec.Ops
/-!
# Linearizability

The definition of Herlihy and Wing (1990) for a map with `get` and `insert`: there is a sequence of calls, one after the other, that an ordinary
map answers in the same way, and in which no call comes before one that had returned when it was made.
-/
namespace Verif.Ops.Lin
open Verif.Spec (Bytes)
variable {V : Type}

/-- A call of the sequence: the thread, the step at which it is made, the call itself and its answer. -/
structure Entry (V : Type) where
  thread : Nat
  time : Nat
  op : Op V
  ans : Option V

/-- An ordinary map answers what it holds for the key; `insert` then puts the value in its place. -/
def apply (m : Bytes → Option V) : Op V → Bytes → Option V
  | .get _ => m
  | .insert d v => fun d' => if d' = d then some v else m d'

/-- A sequence of calls with the answers that an ordinary map gives that holds `m` at the beginning. -/
def Legal (m : Bytes → Option V) : List (Entry V) → Prop
  | [] => True
  | e :: es => e.ans = m e.op.key ∧ Legal (apply m e.op) es

/-- `h` is a linearization of what has happened up to step `N`, as far as the calls in `must` that have returned are concerned, and the inserts
that have taken effect although they have not returned. -/
structure Linearization (τ : Nat → St V) (β : Nat → Option (Act V)) (N : Nat) (must : Nat → Op V → Nat → Nat → Option V → Prop) (h : List (Entry V)) : Prop where
  /-- An ordinary map that is empty at the beginning answers like that. -/
  legal : Legal (fun _ => none) h
  /-- The calls have been made, before step `N`. -/
  made : ∀ e, e ∈ h → Open τ β e.thread e.op e.time (e.time + 1) ∧ e.time < N
  /-- No call is listed twice. -/
  once : h.Pairwise fun e e' => e.time ≠ e'.time
  /-- Calls that have returned have returned the answer that is listed. -/
  answer : ∀ e, e ∈ h → ∀ b r, Call τ β e.thread e.op e.time b r → b < N → e.ans = r
  /-- The lookups that are listed have returned. -/
  done : ∀ e d, e ∈ h → e.op = .get d → ∃ b r, b < N ∧ Call τ β e.thread e.op e.time b r
  /-- All calls of `must` that have returned are listed. -/
  all : ∀ i o a b r, Call τ β i o a b r → b < N → must i o a b r → ⟨i, a, o, r⟩ ∈ h
  /-- No call is listed before one that had returned when it was made. -/
  order : h.Pairwise fun e e' => ∀ b r, Call τ β e'.thread e'.op e'.time b r → ¬ b < e.time

/-- All calls that have returned up to step `N` are linearizable. -/
def Linearizable (τ : Nat → St V) (β : Nat → Option (Act V)) (N : Nat) : Prop := ∃ h, Linearization τ β N (fun _ _ _ _ _ => True) h

end Verif.Ops.Lin
