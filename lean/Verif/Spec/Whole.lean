import Verif.Model.Whole
import Verif.Spec.Forest
import Verif.Proof.ForestProj
import Verif.Proof.IndexOrder5
/-!
# What is said about the whole tree with its internodes
-/
namespace Verif.Whole
open Verif.Spec (Bytes)
open Verif.Race (Out)
variable {V : Type}

/-- A tree as it is made: one empty leaf and no internodes; layers that are not in use yet have nobody in them. -/
structure Start (s : St V) : Prop where
  leaves : Forest.Start s.f
  side : ∀ L, s.side L = Side.init

/-- An execution: any interleaving of descents, lookups, inserts, splits, propagations of splits and conversions in all
layers; `none` is a pause.  `fixed` and `strict` are false for the code as it is; `fixed` is the repair of `get` in
`ChainRace`, `strict` that of `has_changed` in `IndexRace`. -/
structure Exec (fixed strict : Bool) (σ : Nat → St V) (α : Nat → Option (Act V)) : Prop where
  start : Start (σ 0)
  steps : ∀ n, σ (n + 1) = match α n with
    | none => σ n
    | some a => act fixed strict (σ n) a

/-- Up to step `N` no descent accepts what it has read from an internode that is locked (C48), and no propagation of a split
has ended in an error (C49). -/
structure Clean (strict : Bool) (σ : Nat → St V) (α : Nat → Option (Act V)) (N : Nat) : Prop where
  calm : ∀ n, n < N → ∀ L i, α n = some (.inLayer L (.walk i)) → ∀ o r p w x, ((σ n).side L).ix.pc i = .chk o r p w x →
    Index.changed strict (((σ n).side L).ix.heap.node p) w = false → (((σ n).side L).ix.heap.node p).locked = false
  done : ∀ n, n ≤ N → ∀ L i o e, ((σ n).side L).ix.pc i ≠ .fail o e

/-- What an action does to the leaves, as an action of `Model/Forest.lean`. -/
def onForest (s : St V) : Act V → Option (Forest.Act V)
  | .inLayer L a => if s.f.up L = true then (onLeaves (s.lay L) a).map (.inLayer L) else none
  | .convert L i t d v qs =>
    match (s.side L).owns i with
    | some x => if (s.side L).key i = Forest.keyIn (s.f.pre L) d then some (.convert L x t d v qs) else none
    | none => none

/-- The leaves during an execution. -/
def leaves (σ : Nat → St V) (n : Nat) : Forest.St V := (σ n).f

/-- The steps that concern the leaves. -/
def stores (σ : Nat → St V) (α : Nat → Option (Act V)) (n : Nat) : Option (Forest.Act V) := (α n).bind (onForest (σ n))

/-- The ideal map after `n` steps. -/
def map (σ : Nat → St V) (α : Nat → Option (Act V)) (d : Bytes) (n : Nat) : Option V := Forest.map (leaves σ) (stores σ α) d n

/-- The call of thread `i` in layer `L` has not returned from the internodes. -/
def Inside (s : St V) (L i : Nat) : Prop := (s.side L).ix.pc i ≠ .idle ∧ ∀ o x, (s.side L).ix.pc i ≠ .done o x

/-- Thread `i` begins at step `a` at the root of layer `L` to look for `k`, goes down the internodes, enters a leaf at step `c` and
has the answer at step `b`. -/
structure Part (σ : Nat → St V) (α : Nat → Option (Act V)) (i L a c b : Nat) (k : Key) (r : Out V) (saw : Bool) : Prop where
  free : ¬ Inside (σ a) L i
  call : α a = some (.inLayer L (.call i k false))
  lt : a < c
  inside : ∀ n, a < n → n ≤ c → Inside (σ n) L i
  enter : α c = some (.inLayer L (.enter i))
  out : ¬ Inside (σ (c + 1)) L i
  le : c < b
  busy : ∀ n, c < n → n < b → ∀ k' r' w, ((σ n).f.layer L).rd i ≠ .done k' r' w
  ends : ∃ k', ((σ b).f.layer L).rd i = .done k' r saw

/-- Thread `i` looks up `d`, from the root of layer `L` on, where it has shifted its key `m` times: it begins at step `a` and has
the answer at step `b`.  `saw` is that of its last layer. -/
inductive Get (σ : Nat → St V) (α : Nat → Option (Act V)) (i : Nat) (d : Bytes) : Nat → Nat → Nat → Nat → Option V → Bool → Prop
  | found {L m a c b v saw} (h : Part σ α i L a c b (Key.shiftTimes m (Key.mk' d)) (.value v) saw) : Get σ α i d L m a b (some v) saw
  | absent {L m a c b saw} (h : Part σ α i L a c b (Key.shiftTimes m (Key.mk' d)) .absent saw) : Get σ α i d L m a b none saw
  | down {L m a c b q a' e r w saw} (h : Part σ α i L a c b (Key.shiftTimes m (Key.mk' d)) (.descend q) w)
      (hc : b ≤ a') (h' : Get σ α i d q (m + 1) a' e r saw) : Get σ α i d L m a e r saw

end Verif.Whole
