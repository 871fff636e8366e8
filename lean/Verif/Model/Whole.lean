import Verif.Model.Forest
import Verif.Model.IndexRace
/-!
# The whole tree with its internodes

`Model/Forest.lean` is the tree of layers at the granularity of single loads and stores, where a lookup or an insert may enter
the leaves of a layer anywhere at or before its key.  `Model/IndexRace.lean` is the index of one layer (internodes, descents,
split propagation), where leaves are lists.  Here the two are one machine: in every layer, threads go down the internodes load
by load (`reach_leaf_concurrent_generic`, generic.rs:866-926), arrive at a leaf, and go on there load by load and store by
store; a leaf that has been split stays locked until its new sibling has been put into the internodes
(generic.rs:1966-2070, propagation.rs:172-524).  Nothing checks that a thread has arrived at or before its key, nor that an
insert stores inside the range of its leaf: that it does is proved.

Simplifications, besides those of the two machines:

* a leaf has a number as a leaf and a number as a node of the index; `num` and `leaf` translate (in the code both are the
  address);
* whether a split leaf is the root of its layer is looked up when the new leaf is linked, not before the split mark is set
  (generic.rs:1996-2012): the leaf is locked in between;
* a leaf may be split whether it is full or not: more than the code does;
* a descent that arrives at a leaf waits only while the leaf is being split, not while an insert without a split has it locked
  (generic.rs:890): more than the code does, since what it reads there is nothing but that it is a leaf;
* a thread may have calls in several layers at once: more than the code does.
-/
namespace Verif.Whole
open Verif.Internode (upd)
open Verif.Perm (size get)
open Verif.Spec (Bytes)
open Verif.Tree (Cell)
variable {V : Type}

/-- Where an insert stands among the leaves of a layer. -/
inductive IPc where
  /-- `advance_to_key_by_bound_generic` at leaf `x`, `h` hops left, about to load the next pointer: generic.rs:1456-1476 -/
  | adv (h x : Nat)
  /-- about to load the bound of the next leaf `z`: generic.rs:1480-1489 -/
  | bound (h x z : Nat)
  /-- about to lock the leaf: generic.rs:1599 -/
  | lock (x : Nat)
  /-- has the lock, about to check that the key has not moved to the right: generic.rs:1626-1671 -/
  | check (x : Nat)
  /-- has the lock of the leaf of its key: generic.rs:1673-1874 -/
  | own (x : Nat)
deriving DecidableEq

/-- What a layer has besides its leaves: the internodes with the threads that are in them, the two numberings of the leaves,
the key of each thread, and the positions of inserts among the leaves. -/
structure Side where
  ix : Index.St Unit
  num : Nat → Nat
  leaf : Nat → Nat
  key : Nat → Key
  ins : Nat → IPc

/-- One layer: its leaves and the rest. -/
structure Lay (V : Type) where
  c : Chain.St V
  s : Side

/-- What can happen next in a layer. -/
inductive LAct (V : Type) where
  /-- thread `i` begins to look for `k` at the root pointer of the layer, for an insert or for a lookup -/
  | call (i : Nat) (k : Key) (put : Bool)
  /-- thread `i` makes its next step in the internodes -/
  | walk (i : Nat)
  /-- thread `i` has arrived at a leaf and goes on there -/
  | enter (i : Nat)
  /-- thread `i` makes the next step of a lookup in a leaf -/
  | read (i : Nat)
  /-- thread `i` makes the next step of an insert up to the check under the lock -/
  | step (i : Nat)
  /-- thread `i`, which owns a leaf, writes into its unpublished slot `t`: generic.rs:1883-1914 -/
  | write (i t ik kl : Nat) (c : Cell V) (sf : Option Bytes)
  /-- it publishes the slot at offset `off` from the back at position `pos`: generic.rs:1747-1783 -/
  | publish (i pos off : Nat)
  /-- it replaces the value in slot `t`: generic.rs:1684-1712 -/
  | update (i t : Nat) (v : V)
  /-- it is done with the leaf and drops the lock -/
  | finish (i : Nat)
  /-- it sets the split mark: generic.rs:2026 -/
  | split (i : Nat)
  /-- it freezes the permutation to split before position `sp` into the new leaf `y`: leaf24.rs:1246-1283 -/
  | freeze (i sp y : Nat)
  /-- it makes its next step in a split or in a conversion -/
  | hold (i : Nat)
  /-- the lock of leaf `x` is released -/
  | unlock (x : Nat)
  /-- the new leaf `y` is unlocked: nodeversion.rs:936-950 -/
  | release (y : Nat)

/-- The leaf that a thread owns. -/
def Side.owns (s : Side) (i : Nat) : Option Nat :=
  match s.ix.pc i, s.ins i with
  | .sect _ _ _, .own x => some x
  | _, _ => none

/-- The thread is in the internodes. -/
def inIndex : Index.Pc Unit → Bool
  | .look _ _ | .nxt _ _ | .adv _ _ _ _ | .sect _ _ _ => false
  | _ => true

/-- What an insert has found out before it publishes slot `t` at position `pos`: the slot has the slice of its key, a value and a
length, with the suffix if there is one, the slices around the position are right, and no published slot has the same slice and length class:
generic.rs:1673-1720, 1883-1914. -/
def ready (l : Chain.LeafSt V) (ik pos t : Nat) : Bool :=
  decide ((∀ j, j < pos → l.b.ikey (get 5 l.b.perm j) ≤ ik) ∧
    (∀ j, j < size 5 l.b.perm → pos ≤ j → ik ≤ l.b.ikey (get 5 l.b.perm j)) ∧
    (∀ j, j < size 5 l.b.perm → ¬ (l.b.ikey (get 5 l.b.perm j) = ik ∧ Chain.cls (l.b.klx (get 5 l.b.perm j)) = Chain.cls (l.b.klx t))) ∧
    l.b.ikey t = ik ∧ Chain.isVal (l.b.cell t) = true ∧ (l.b.klx t ≤ 8 ∨ l.b.klx t = 64 ∧ (l.b.ksuf t).isSome = true))

/-- The lock has been taken and nothing is under way. -/
def isLocked : Chain.HPc → Bool
  | .locked _ => true
  | _ => false

/-- The check under the lock fails: the next pointer is marked, or the key belongs to the next leaf or further:
generic.rs:1630-1669. -/
def moved (c : Chain.St V) (x ik : Nat) : Bool :=
  (c.leaf x).mark || decide ((c.leaf x).nx ≠ 0 ∧ (c.leaf (c.leaf x).nx).lo ≤ ik)

/-- What an action does to the leaves, as an action of `Model/ChainRace.lean`. -/
def onLeaves (l : Lay V) : LAct V → Option (Chain.Act V)
  | .call _ _ _ => none
  | .walk _ => none
  | .enter i =>
    match l.s.ix.pc i, l.c.rd i with
    | .look _ n, .idle => some (.start i (l.s.leaf n) (l.s.key i))
    | .look _ n, .done _ _ _ => some (.start i (l.s.leaf n) (l.s.key i))
    | _, _ => none
  | .read i => some (.read i)
  | .step i =>
    match l.s.ix.pc i, l.s.ins i with
    | .sect _ _ _, .lock x => if NV.lockable (l.c.leaf x).word = true then some (.lock x) else none
    | .sect o _ _, .check x => if moved l.c x o.key then some (.giveUp x) else none
    | _, _ => none
  | .write i t ik kl c sf => (l.s.owns i).map fun x => .write x t ik kl c sf
  | .publish i pos off =>
    match l.s.owns i with
    | some x =>
      let y : Cas.Try := ⟨⟨0, 0⟩, 0#32, (l.c.leaf x).b.perm, pos, off⟩
      if isLocked (l.c.hold x) = true ∧ pos ≤ size 5 (l.c.leaf x).b.perm ∧ off < 24 - size 5 (l.c.leaf x).b.perm ∧
          ready (l.c.leaf x) (l.s.key i).ikey pos y.slot = true then some (.publish x pos off) else none
    | none => none
  | .update i t v => (l.s.owns i).map fun x => .update x t v
  | .finish i =>
    match l.s.owns i with
    | some x => if isLocked (l.c.hold x) = true then some (.giveUp x) else none
    | none => none
  | .split i => (l.s.owns i).map fun x => .markSplit x
  | .freeze i sp y => (l.s.owns i).map fun x => .freeze x sp y
  | .hold i => (l.s.owns i).map fun x => .hold x
  | .unlock x =>
    match l.c.hold x with
    | .unlock _ => if (l.s.ix.heap.node (l.s.num x)).locked = false then some (.hold x) else none
    | _ => none
  | .release y => if (l.s.ix.heap.node (l.s.num y)).locked = false then some (.release y) else none

/-- The effect on the leaves.  A lookup begins at the leaf it was led to, and a slot is published, without a look at the range
of the leaf. -/
def raw (fixed : Bool) (c : Chain.St V) : Chain.Act V → Chain.St V
  | .start i x k => { c with rd := upd c.rd i (.leaf x (.stable k)) }
  | .publish x pos off =>
    let y : Cas.Try := ⟨⟨0, 0⟩, 0#32, (c.leaf x).b.perm, pos, off⟩
    { c with leaf := upd c.leaf x { c.leaf x with b := { (c.leaf x).b with perm := y.newPerm } } }
  | .lock x =>
    { c with leaf := upd c.leaf x { c.leaf x with word := NV.lockedOf (c.leaf x).word },
             hold := upd c.hold x (.locked (NV.lockedOf (c.leaf x).word)) }
  | a => Chain.act fixed c a

/-- The index after leaf `l` has been split and its new sibling, which begins at `sep`, has been linked: generic.rs:1966-2070. -/
def splitAt (h : Index.Heap Unit) (l sep : Nat) : Index.Heap Unit :=
  let n := h.node l
  let y : Index.Node Unit := { ht := 0, lo := sep, ents := [], next := n.next, arr := Index.emptyArr, base := Index.emptyArr, parent := 0,
                               rootf := false, locked := true, splitting := true, vs := 0, vi := 0 }
  let l' : Index.Node Unit := { n with ents := [], next := h.fresh, locked := true, splitting := true }
  { h with node := upd (upd h.node l l') h.fresh y, fresh := h.fresh + 1 }

/-- A thread goes on elsewhere in the index. -/
def Side.goto (s : Side) (i : Nat) (p : Index.Pc Unit) : Side := { s with ix := { s.ix with pc := upd s.ix.pc i p } }

/-- An insert goes on elsewhere among the leaves. -/
def Side.move (s : Side) (i : Nat) (p : IPc) : Side := { s with ins := upd s.ins i p }

/-- The new leaf `y` of `x` has been linked: the thread turns to the parent with what `make_split_leaf` is given,
generic.rs:2048-2062, propagation.rs:172-193. -/
def link (main : Bool) (s : Side) (i x y sep : Nat) : Side :=
  match s.ix.pc i with
  | .sect o r _ =>
    let h := s.ix.heap
    let l := s.num x
    let isMain := main && (h.node l).rootf && h.root == l
    let isLayer := (h.node l).rootf && (h.node l).parent == 0 && !isMain
    { s with
      ix := ⟨splitAt h l sep, upd s.ix.pc i (.par ⟨o, r, l, h.fresh, sep, isMain, isLayer, 0, 0⟩)⟩
      num := upd s.num y h.fresh
      leaf := upd s.leaf h.fresh y }
  | _ => s

/-- What an action does to everything but the leaves. -/
def beside (strict main : Bool) (l : Lay V) : LAct V → Side
  | .call i k put =>
    match l.s.ix.pc i with
    | .idle | .done _ _ =>
      { l.s with key := upd l.s.key i k
                 ix := Index.act strict main l.s.ix (.call i (if put then .insert k.ikey () else .get k.ikey)) }
    | _ => l.s
  | .walk i => if inIndex (l.s.ix.pc i) then { l.s with ix := Index.act strict main l.s.ix (.run i) } else l.s
  | .enter i =>
    match l.s.ix.pc i, l.c.rd i with
    | .look o _, .idle => l.s.goto i (.done o none)
    | .look o _, .done _ _ _ => l.s.goto i (.done o none)
    | .adv o r h n, _ => (l.s.goto i (.sect o r n)).move i (.adv h (l.s.leaf n))
    | _, _ => l.s
  | .step i =>
    match l.s.ix.pc i, l.s.ins i with
    | .sect o r _, .adv h x =>
      if h = 0 then l.s.goto i (.climb o (if main then l.s.ix.heap.root else r))
      else if (l.c.leaf x).mark then l.s
      else if (l.c.leaf x).nx = 0 then l.s.move i (.lock x)
      else l.s.move i (.bound (h - 1) x (l.c.leaf x).nx)
    | .sect o _ _, .bound h x z => if (l.c.leaf z).lo ≤ o.key then l.s.move i (.adv h z) else l.s.move i (.lock x)
    | .sect _ _ _, .lock x => if NV.lockable (l.c.leaf x).word = true then l.s.move i (.check x) else l.s
    | .sect o r _, .check x => if moved l.c x o.key then l.s.goto i (.climb o r) else l.s.move i (.own x)
    | _, _ => l.s
  | .finish i =>
    match l.s.ix.pc i, l.s.ins i with
    | .sect o _ _, .own x => if isLocked (l.c.hold x) = true then l.s.goto i (.done o none) else l.s
    | _, _ => l.s
  | .hold i =>
    match l.s.owns i with
    | some x =>
      match l.c.hold x with
      | .publish _ y => link main l.s i x y (l.c.leaf y).lo
      | _ => l.s
    | none => l.s
  | _ => l.s

/-- One step in a layer. -/
def lact (fixed strict main : Bool) (l : Lay V) (a : LAct V) : Lay V :=
  ⟨match onLeaves l a with
    | none => l.c
    | some b => raw fixed l.c b, beside strict main l a⟩

/-- All layers. -/
structure St (V : Type) where
  f : Forest.St V
  side : Nat → Side

/-- What can happen next. -/
inductive Act (V : Type) where
  /-- a step in one layer -/
  | inLayer (L : Nat) (a : LAct V)
  /-- thread `i`, which inserts `d` and owns a leaf of layer `L`, has found in slot `t` the same eight bytes and another suffix: it
  makes the layers `qs` and begins to turn the slot into a pointer to the first of them: generic.rs:1804-1835 -/
  | convert (L i t : Nat) (d : Bytes) (v : V) (qs : List Nat)

/-- Layer `L`. -/
def St.lay (s : St V) (L : Nat) : Lay V := ⟨s.f.layer L, s.side L⟩

/-- The effect of what happens; a step that cannot be made has no effect.  Layer 0 is the main tree. -/
def act (fixed strict : Bool) (s : St V) : Act V → St V
  | .inLayer L a =>
    if s.f.up L = true then
      let l := lact fixed strict (L == 0) (s.lay L) a
      { f := { s.f with
          layer := upd s.f.layer L l.c
          up := fun z => s.f.up z || match onLeaves (s.lay L) a with
            | some b => (Forest.opens s.f L b).contains z
            | none => false }
        side := upd s.side L l.s }
    else s
  | .convert L i t d v qs =>
    match (s.side L).owns i with
    | some x => if (s.side L).key i = Forest.keyIn (s.f.pre L) d then { s with f := Forest.act fixed s.f (.convert L x t d v qs) } else s
    | none => s

/-- A layer with one leaf, number 1, and nobody in it. -/
def Side.init : Side :=
  { ix := Index.init, num := fun _ => 1, leaf := fun _ => 1, key := fun _ => Key.mk' [], ins := fun _ => .adv 0 0 }

end Verif.Whole
