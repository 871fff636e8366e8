import Verif.Model.ChainRace
import Verif.Spec.LeafView
/-!
# What a chain of leaves says about a key, and lookups in an execution
-/
namespace Verif.Chain
open Verif.Perm (size get)
open Verif.Race (SlotIs SlotLeads RPc Out)
variable {V : Type}

/-- A slot with a value and a length of at most 8 or a suffix, or a slot that leads to a sublayer. -/
def Good (b : Tree.Leaf V) (t : Nat) : Prop :=
  ((∃ v, b.cell t = .val v) ∧ (b.klx t ≤ 8 ∨ b.klx t = 64 ∧ (b.ksuf t).isSome = true)) ∨ ((∃ q, b.cell t = .layer q) ∧ b.klx t = 128 ∧ b.ksuf t = none)

/-- Two slots with the same slice and length class. -/
def Twin (b : Tree.Leaf V) (t : Nat) (b' : Tree.Leaf V) (t' : Nat) : Prop :=
  b.ikey t = b'.ikey t' ∧ cls (b.klx t) = cls (b'.klx t')

instance (b : Tree.Leaf V) (s : Nat) (k : Key) : Decidable (SlotIs b s k) := by unfold SlotIs; infer_instance

instance (b : Tree.Leaf V) (s : Nat) (k : Key) : Decidable (SlotLeads b s k) := by unfold SlotLeads; infer_instance

/-- What slot `t` says about the key `k`: it has the key and a value, or it leads to the sublayer that the key is in. -/
def shown (b : Tree.Leaf V) (t : Nat) (k : Key) : Option (Out V) :=
  match b.cell t with
  | .val v => if SlotIs b t k then some (.value v) else none
  | .layer q => if SlotLeads b t k then some (.descend q) else none
  | .null => none

/-- What a leaf says about the key `k`. -/
def leafSays (b : Tree.Leaf V) (k : Key) : Out V :=
  ((List.range (size 5 b.perm)).findSome? fun j => shown b (get 5 b.perm j) k).getD .absent

/-- Some leaf of the chain that is not being split has a published slot that says `r` about the key `k`. -/
def Holds (s : St V) (k : Key) (r : Out V) : Prop :=
  ∃ x j, s.live x = true ∧ Freeze.isFrozen (s.leaf x).b.perm = false ∧ j < size 5 (s.leaf x).b.perm ∧
    shown (s.leaf x).b (get 5 (s.leaf x).b.perm j) k = some r

/-- A value under the eight bytes that come next in `k` is being turned into a sublayer. -/
def InTransit (s : St V) (k : Key) : Prop :=
  ∃ x lv t q st, s.hold x = .conv lv t q st ∧ (s.leaf x).b.ikey t = k.ikey

/-- As above, and `k` goes on after them. -/
def Converting (s : St V) (k : Key) : Prop := k.hasSuffix = true ∧ InTransit s k

/-- How many times the lock of leaf `x` has been released. -/
def releases (σ : Nat → St V) (x : Nat) : Nat → Nat
  | 0 => 0
  | n + 1 => releases σ x n + (if (σ n).hold x ≠ .free ∧ (σ (n + 1)).hold x = .free then 1 else 0)

/-- Thread `i` begins to look up `k` at step `a` and has the answer `r` at step `b`. -/
structure Lookup (σ : Nat → St V) (i a b : Nat) (k : Key) (r : Out V) (saw : Bool) : Prop where
  le : a ≤ b
  begins : ∃ x, (σ a).rd i = .leaf x (.stable k)
  busy : ∀ n, a ≤ n → n < b → ∀ k' r' w, (σ n).rd i ≠ .done k' r' w
  ends : (σ b).rd i = .done k r saw

/-- What a step makes of the key `k`.  Replacing the value of a published slot and publishing a slot give the key a value.
The last store of a conversion makes the sublayer responsible for all keys that begin with the slot's eight bytes and go on
after them. -/
def written (s : St V) (k : Key) : Act V → Option (Out V)
  | .update x t v =>
    match s.hold x, (s.leaf x).b.cell t with
    | .locked _, .val _ => if freeSlot (s.leaf x).b.perm t = false ∧ SlotIs (s.leaf x).b t k then some (.value v) else none
    | _, _ => none
  | .publish x pos off =>
    match s.hold x with
    | .locked _ =>
      let y : Cas.Try := ⟨⟨0, 0⟩, 0#32, (s.leaf x).b.perm, pos, off⟩
      if (pos ≤ size 5 (s.leaf x).b.perm ∧ off < 24 - size 5 (s.leaf x).b.perm ∧
          fits (s.leaf x) (s.leaf (s.leaf x).nx).lo pos y.slot = true) ∧ SlotIs (s.leaf x).b y.slot k then
        match (s.leaf x).b.cell y.slot with
        | .val v => some (.value v)
        | _ => none
      else none
    | _ => none
  | .hold x =>
    match s.hold x with
    | .conv _ t q st => if st = 4 ∧ (s.leaf x).b.ikey t = k.ikey ∧ k.hasSuffix = true then some (.descend q) else none
    | _ => none
  | _ => none

/-- What an ideal map would say about `k` after `n` steps: what was written last, or else what the layer held when it was
made. -/
def contents (σ : Nat → St V) (α : Nat → Option (Act V)) (k : Key) : Nat → Out V
  | 0 => leafSays ((σ 0).leaf 1).b k
  | n + 1 =>
    match (α n).bind (written (σ n) k) with
    | some r => r
    | none => contents σ α k n

/-- `α` are the steps of the execution `σ`; `none` is a pause. -/
def Steps (fixed : Bool) (σ : Nat → St V) (α : Nat → Option (Act V)) : Prop :=
  ∀ n, σ (n + 1) = match α n with
    | none => σ n
    | some a => act fixed (σ n) a

end Verif.Chain
