import Verif.Model.ChainRace
/-!
# A tree of layers

The whole trie, every load and store a step: each layer is a machine of `ChainRace`, and an insert that meets a different key
with the same eight bytes makes new layers and stores a pointer to the first of them (`insert_concurrent_generic`,
generic.rs:1804-1858, with `create_layer_concurrent_generic`, generic.rs:2187-2316, and `assign_final_layer_entries`,
generic.rs:2331-2387).  Lookups go from layer to layer with the key shifted by eight bytes (generic.rs:768-776).

Simplifications, besides those of `ChainRace`:

* layers are numbered; layer 0 is the one the tree starts with.  The pointer to a layer is its number.  The pointer to the
  root leaf of a layer stays in the parent's slot when the layer gets more leaves; where a lookup starts in the chain of
  leaves is left open, as in `ChainRace`, so the routing through internodes does not matter here;
* new layers are built in private memory, so building them is one step, together with the first store of the conversion;
* nobody uses a layer before the pointer to it has been stored (`up`).
-/
namespace Verif.Forest
open Verif.Spec (Bytes)
open Verif.Internode (upd)
open Verif.Perm (makeSorted24)
open Verif.Tree (Leaf Cell emptyLeaf layerKeylenx finalLeaf)
open Verif.Chain (freeSlot)
variable {V : Type}

/-- What an insert that is turning a value into a sublayer has in hand: its key and value, and the layers it has made. -/
structure Job (V : Type) where
  key : Bytes
  val : V
  made : List Nat

/-- All layers.  `pre` (not part of the code) are the bytes that lead to a layer, `made` says that the layer has been
allocated, `up` that the pointer to it has been stored; `job q` is the insert that made layer `q` and some below it. -/
structure St (V : Type) where
  layer : Nat → Chain.St V
  pre : Nat → Bytes
  made : Nat → Bool
  up : Nat → Bool
  job : Nat → Option (Job V)

/-- The key `d` in a layer that `p` leads to: `Key::new` (key.rs:90) and one `shift` (key.rs:237) for each layer above. -/
def keyIn (p d : Bytes) : Key := Key.shiftTimes (p.length / 8) (Key.mk' d)

/-- Keys that can be in a layer that `p` leads to: they begin with `p` and do not end there, because only keys that go on
after eight bytes are led into a sublayer (generic.rs:728-736). -/
def Under (p d : Bytes) : Prop := p <+: d ∧ (p = [] ∨ p.length < d.length)

instance (p d : Bytes) : Decidable (Under p d) := by unfold Under; infer_instance

/-- A leaf that only leads on to layer `q`: generic.rs:2250-2270. -/
def twigLeaf (ik q : Nat) : Leaf V :=
  { (emptyLeaf : Leaf V) with
    ikey := upd (fun _ => 0) 0 ik, klx := upd (fun _ => 0) 0 layerKeylenx, cell := upd (fun _ => .null) 0 (.layer q),
    perm := makeSorted24 1 }

/-- Both keys have the same next eight bytes and go on: the loop condition at generic.rs:2243. -/
def alike (ek nk : Key) : Bool := decide (ek.compare nk.ikey nk.currentLen = .eq) && ek.hasSuffix && nk.hasSuffix

/-- The leaves of the new layers numbered `qs`, for what is left of the existing key and of the new one:
generic.rs:2229-2316.  The list is as long as `qs` if and only if `qs` has the right length. -/
def leavesFor (ek : Key) (ev : V) (nk : Key) (nv : V) : List Nat → List (Leaf V)
  | [] => []
  | [_] => if alike ek nk then [] else [finalLeaf ek ev nk nv (ek.compare nk.ikey nk.currentLen)]
  | _ :: q :: qs => if alike ek nk then twigLeaf ek.ikey q :: leavesFor ek.shift ev nk.shift nv (q :: qs) else []

/-- A new layer with this leaf, number 1: `new_layer_root_boxed`, leaf24.rs:190-205. -/
def newLayer (b : Leaf V) : Chain.St V :=
  { leaf := upd (fun _ => ⟨emptyLeaf, NV.new true, 0, false, 0⟩) 1 ⟨b, NV.markRoot (NV.new true), 0, false, 0⟩,
    hold := fun _ => .free, live := fun x => x == 1, used := fun x => x == 1, rd := fun _ => .idle }

/-- What can happen next. -/
inductive Act (V : Type) where
  /-- a step inside one layer -/
  | inLayer (L : Nat) (a : Chain.Act V)
  /-- an insert of `d` that holds the lock of leaf `x` has found in slot `t` the same eight bytes and another suffix: it
  makes the layers `qs` and begins to turn the slot into a pointer to the first of them -/
  | convert (L x t : Nat) (d : Bytes) (v : V) (qs : List Nat)

/-- The beginning of a conversion as a step inside a layer is `Act.convert`. -/
def plain : Chain.Act V → Bool
  | .convert _ _ _ => false
  | _ => true

/-- The layers whose pointer a step stores. -/
def opens (s : St V) (L : Nat) : Chain.Act V → List Nat
  | .hold x =>
    match (s.layer L).hold x with
    | .conv _ _ q st =>
      if st = 4 then
        match s.job q with
        | some j => j.made
        | none => []
      else []
    | _ => []
  | _ => []

/-- The leaves of the layers that an insert of `d` makes, if it may: it holds the lock of leaf `x`, slot `t` of the leaf is in
use, has the same eight bytes and a different suffix (`Conflict`, generic.rs:1804, from `search_for_insert_generic`), and the
numbers `qs` are new. -/
def conflict (s : St V) (L x t : Nat) (d : Bytes) (v : V) (qs : List Nat) : Option (List (Leaf V)) :=
  let b := ((s.layer L).leaf x).b
  let k := keyIn (s.pre L) d
  match (s.layer L).hold x, b.cell t, b.ksuf t with
  | .locked _, .val ev, some es =>
    if s.up L = true ∧ Under (s.pre L) d ∧ freeSlot b.perm t = false ∧ b.klx t = 64 ∧ b.ikey t = k.ikey ∧ k.hasSuffix = true ∧
        es ≠ k.suffix ∧ (∀ z ∈ qs, s.made z = false) ∧ qs.Nodup ∧ qs ≠ [] ∧
        (leavesFor (Key.mk' es) ev k.shift v qs).length = qs.length then
      some (leavesFor (Key.mk' es) ev k.shift v qs)
    else none
  | _, _, _ => none

/-- The effect of what happens; a step that cannot be made has no effect. -/
def act (fixed : Bool) (s : St V) : Act V → St V
  | .inLayer L a =>
    if s.up L = true ∧ plain a = true then
      { s with layer := upd s.layer L (Chain.act fixed (s.layer L) a), up := fun z => s.up z || (opens s L a).contains z }
    else s
  | .convert L x t d v qs =>
    match conflict s L x t d v qs with
    | some bs =>
      { s with
        layer := upd (fun z => if z ∈ qs then newLayer (bs.getD (qs.idxOf z) emptyLeaf) else s.layer z) L
          (Chain.act fixed (s.layer L) (.convert x t (qs.headD 0)))
        pre := fun z => if z ∈ qs then d.take ((s.pre L).length + 8 * (qs.idxOf z + 1)) else s.pre z
        made := fun z => s.made z || qs.contains z
        job := upd s.job (qs.headD 0) (some ⟨d, v, qs⟩) }
    | none => s

end Verif.Forest
