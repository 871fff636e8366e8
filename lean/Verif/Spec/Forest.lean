import Verif.Model.Forest
import Verif.Spec.Chain
/-!
# The map that a tree of layers stands for, and lookups in an execution
-/
namespace Verif.Forest
open Verif.Spec (Bytes)
open Verif.Race (Out)
variable {V : Type}

/-- The value that a step gives to the key `d`: by replacing a value, by publishing a slot, or by storing the pointer to a
sublayer in which the key has just been put. -/
def written (s : St V) (d : Bytes) : Act V → Option V
  | .inLayer L a =>
    if s.up L = true ∧ plain a = true ∧ Under (s.pre L) d then
      match Chain.written (s.layer L) (keyIn (s.pre L) d) a with
      | some (.value v) => some v
      | some (.descend q) =>
        match s.job q with
        | some j => if j.key = d then some j.val else none
        | none => none
      | _ => none
    else none
  | .convert _ _ _ _ _ _ => none

/-- The ideal map after `n` steps: it starts empty. -/
def map (σ : Nat → St V) (α : Nat → Option (Act V)) (d : Bytes) : Nat → Option V
  | 0 => none
  | n + 1 =>
    match (α n).bind (written (σ n) d) with
    | some v => some v
    | none => map σ α d n

/-- `α` are the steps of the execution `σ`; `none` is a pause. -/
def Steps (fixed : Bool) (σ : Nat → St V) (α : Nat → Option (Act V)) : Prop :=
  ∀ n, σ (n + 1) = match α n with
    | none => σ n
    | some a => act fixed (σ n) a

/-- Thread `i` looks up `d`, from layer `L` on, where it has shifted its key `m` times: it begins at step `a` and has the
answer at step `b`.  `saw` is that of its last layer. -/
inductive Get (σ : Nat → St V) (i : Nat) (d : Bytes) : Nat → Nat → Nat → Nat → Option V → Bool → Prop
  | found {L m a b v saw} (h : Chain.Lookup (fun n => (σ n).layer L) i a b (Key.shiftTimes m (Key.mk' d)) (.value v) saw) :
      Get σ i d L m a b (some v) saw
  | absent {L m a b saw} (h : Chain.Lookup (fun n => (σ n).layer L) i a b (Key.shiftTimes m (Key.mk' d)) .absent saw) :
      Get σ i d L m a b none saw
  | down {L m a b q c e r w saw} (h : Chain.Lookup (fun n => (σ n).layer L) i a b (Key.shiftTimes m (Key.mk' d)) (.descend q) w)
      (hc : b ≤ c) (h' : Get σ i d q (m + 1) c e r saw) : Get σ i d L m a e r saw

/-- What the insert that makes this step returns. -/
def returned (s : St V) : Act V → Option V
  | .inLayer L (.update x t _) =>
    match ((s.layer L).leaf x).b.cell t with
    | .val w => some w
    | _ => none
  | _ => none

/-- Going down from layer `L`, where the key `d` has been shifted `m` times, through what the leaves say, ends at `r`. -/
inductive Walk (s : St V) (d : Bytes) : Nat → Nat → Option V → Prop
  | found {L m v} (h : Chain.Holds (s.layer L) (Key.shiftTimes m (Key.mk' d)) (.value v)) : Walk s d L m (some v)
  | absent {L m} (h : ∀ r, ¬ Chain.Holds (s.layer L) (Key.shiftTimes m (Key.mk' d)) r) : Walk s d L m none
  | down {L m q r} (h : Chain.Holds (s.layer L) (Key.shiftTimes m (Key.mk' d)) (.descend q)) (h' : Walk s d q (m + 1) r) :
      Walk s d L m r

/-- A value is being turned into a sublayer under eight bytes that `d` has, in a layer on the way to `d`, and `d` goes on after
them or is empty. -/
def InTransit (s : St V) (d : Bytes) : Prop :=
  ∃ L, s.up L = true ∧ Under (s.pre L) d ∧ ((s.pre L).length + 8 < d.length ∨ d = []) ∧
    Chain.InTransit (s.layer L) (keyIn (s.pre L) d)

end Verif.Forest
