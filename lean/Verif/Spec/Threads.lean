import Verif.Model.TreeRace
import Verif.Spec.Map
/-!
Specification vocabulary for many threads on one tree: executions, and the list of inserts that have returned.
-/
namespace Verif.Threads
open Verif.Spec
variable {V : Type}

/-- An execution from the empty tree: in every step some thread makes a call or goes one step further. -/
structure Exec (fixed : Bool) (σ : Nat → St V) (α : Nat → Act V) : Prop where
  start : σ 0 = ⟨Tree.empty, fun _ => .idle⟩
  next : ∀ n, σ (n + 1) = act fixed (σ n) (α n)

/-- The insert that returns in a step of a thread, if any: before the step the thread was busy, after it an insert is done. -/
def completed : Pc V → Pc V → Option (Bytes × V)
  | .done _ _, _ => none
  | _, .done (.insert d v) _ => some (d, v)
  | _, _ => none

/-- The inserts that have returned before step `n`, oldest first. -/
def returned (σ : Nat → St V) (α : Nat → Act V) : Nat → History V
  | 0 => []
  | n + 1 => returned σ α n ++
    match α n with
    | .run i => (completed ((σ n).pc i) ((σ (n + 1)).pc i)).toList
    | .call _ _ => []

/-- Before step `n`, no insert has run out of its 128 hops along the leaves of a sublayer. -/
def NoOverrun (σ : Nat → St V) (n : Nat) : Prop :=
  ∀ j, j < n → ∀ i o k r l, (σ j).pc i = .adv o k r 0 l → k.shiftCount = 0

/-- One step of `lost`. -/
def losing (fixed : Bool) (s : St V) (a : Act V) (m : Nat → Nat) (i : Nat) : Nat :=
  match a with
  | .call j _ =>
    if i = j then
      match s.pc i with
      | .idle => 0
      | .done _ _ => 0
      | _ => m i
    else m i
  | .run j =>
    if i = j then
      match s.pc i with
      | .adv _ k _ 0 _ => if fixed then m i else k.shiftCount
      | _ => m i
    else m i

/-- How many chunks (of eight bytes) at the beginning of its key the last call of thread `i` has lost before step `n`: none when it
is called; if it runs out of hops after `k.shiftCount` chunks, these. -/
def lost (fixed : Bool) (σ : Nat → St V) (α : Nat → Act V) : Nat → Nat → Nat
  | 0, _ => 0
  | n + 1, i => losing fixed (σ n) (α n) (lost fixed σ α n) i

/-- The inserts that have returned before step `n`, oldest first, each with what was left of its key. -/
def stored (fixed : Bool) (σ : Nat → St V) (α : Nat → Act V) : Nat → History V
  | 0 => []
  | n + 1 => stored fixed σ α n ++
    match α n with
    | .run i => ((completed ((σ n).pc i) ((σ (n + 1)).pc i)).map fun p => (p.1.drop (8 * lost fixed σ α n i), p.2)).toList
    | .call _ _ => []

/-- The call a thread is working on, or has completed last. -/
def Pc.op? : Pc V → Option (Op V)
  | .idle => none
  | .climb o _ _ => some o
  | .desc o _ _ _ => some o
  | .adv o _ _ _ _ => some o
  | .sect o _ _ _ => some o
  | .look o _ _ => some o
  | .next o _ _ => some o
  | .done o _ => some o
  | .fail o _ => some o

end Verif.Threads
