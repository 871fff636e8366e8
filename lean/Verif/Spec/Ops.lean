import Verif.Model.Ops
import Verif.Spec.Whole
/-!
# What is said about calls
-/
namespace Verif.Ops
open Verif.Spec (Bytes)
variable {V : Type}

/-- An empty tree, and nobody has called anything. -/
structure Start (s : St V) : Prop where
  tree : Whole.Start s.w
  idle : ∀ i, s.ph i = .idle
  count : s.count = 0

/-- An execution: any number of threads call `get` and `insert`, one call after the other, and their steps are interleaved in any
way; `none` is a pause. -/
structure Exec (fixed strict : Bool) (τ : Nat → St V) (β : Nat → Option (Act V)) : Prop where
  start : Start (τ 0)
  steps : ∀ n, τ (n + 1) = match β n with
    | none => τ n
    | some a => act fixed strict (τ n) a

/-- The tree during an execution. -/
def tree (τ : Nat → St V) (n : Nat) : Whole.St V := (τ n).w

/-- What happens in the tree. -/
def moves (τ : Nat → St V) (β : Nat → Option (Act V)) (n : Nat) : Option (Whole.Act V) := (β n).bind (onTree (τ n))

/-- Up to step `N` no descent accepts what it has read from an internode that is locked (C48), and no propagation of a split has
ended in an error (C49). -/
abbrev Clean (strict : Bool) (τ : Nat → St V) (β : Nat → Option (Act V)) (N : Nat) : Prop := Whole.Clean strict (tree τ) (moves τ β) N

/-- The ideal map after `n` steps. -/
def map (τ : Nat → St V) (β : Nat → Option (Act V)) (d : Bytes) (n : Nat) : Option V := Whole.map (tree τ) (moves τ β) d n

/-- What step `n` stores for the key `d`. -/
def stored (τ : Nat → St V) (β : Nat → Option (Act V)) (n : Nat) (d : Bytes) : Option V :=
  (Whole.stores (tree τ) (moves τ β) n).bind (Forest.written (tree τ n).f d)

/-- An insert is under way in thread `i`. -/
def Inserting (s : St V) (i : Nat) : Prop := (s.ph i).over = false ∧ ∃ d v, s.op i = .insert d v

/-- A step of thread `i` changes something: it does not wait. -/
def CanMove (fixed strict : Bool) (s : St V) (i : Nat) : Prop := ∃ y qs, act fixed strict s (.run i y qs) ≠ s

/-- Step `n` is one of thread `i`. -/
def Runs (β : Nat → Option (Act V)) (i n : Nat) : Prop := ∃ y qs, β n = some (.run i y qs)

/-- The number that the next node of layer `L` would get; one more than the number of its leaves and internodes. -/
def nodes (s : St V) (L : Nat) : Nat := (s.w.side L).ix.heap.fresh

open Classical in
/-- The steps after step `a` and before step `n` in which a thread other than `i` adds a node to a layer. -/
noncomputable def otherNodes (τ : Nat → St V) (β : Nat → Option (Act V)) (i a : Nat) : Nat → Nat
  | 0 => 0
  | n + 1 => otherNodes τ β i a n + if a < n ∧ ¬ Runs β i n ∧ ∃ L, nodes (τ n) L < nodes (τ (n + 1)) L then 1 else 0

open Classical in
/-- The number of steps that thread `i` makes after step `a` and before step `n`. -/
noncomputable def ownSteps (β : Nat → Option (Act V)) (i a : Nat) : Nat → Nat
  | 0 => 0
  | n + 1 => ownSteps β i a n + if a < n ∧ Runs β i n then 1 else 0

/-- Thread `i` calls `o` at step `a` and has not returned after step `b`. -/
structure Open (τ : Nat → St V) (β : Nat → Option (Act V)) (i : Nat) (o : Op V) (a b : Nat) : Prop where
  call : β a = some (.call i o)
  free : ((τ a).ph i).over = true
  lt : a < b
  busy : ∀ n, a < n → n ≤ b → ((τ n).ph i).over = false

/-- Thread `i` calls `o` at step `a` and has the answer `r` after step `b`. -/
structure Call (τ : Nat → St V) (β : Nat → Option (Act V)) (i : Nat) (o : Op V) (a b : Nat) (r : Option V) : Prop where
  busy : Open τ β i o a b
  ends : (τ (b + 1)).ph i = .ret r

/-- In its call between steps `a` and `b`, thread `i` does not answer after a look at a next pointer that is marked because the leaf
is being split (C31).  It is in `read` only in its own call. -/
def Unmarked (τ : Nat → St V) (i a b : Nat) : Prop :=
  ∀ n L m k r, a < n → n ≤ b → (τ n).ph i = .read L m → ((τ n).w.f.layer L).rd i ≠ .done k r true

/-- The keys of the map after `n` steps, each once. -/
structure Keys (τ : Nat → St V) (β : Nat → Option (Act V)) (n : Nat) (ks : List Bytes) : Prop where
  once : ks.Nodup
  mem : ∀ d, d ∈ ks ↔ map τ β d n ≠ none

end Verif.Ops
