import Verif.Model.Whole
/-!
# Calls of `get` and `insert`

`Model/Whole.lean` has the single steps of the tree, in any order.  Here every thread runs the code of `get`
(`get_concurrent_generic`, generic.rs:655-828) and `insert` (`insert_concurrent_generic`, generic.rs:1548-1876), from the call to
the answer, in all layers, and each step it makes is a step of that machine.  What an insert does with the leaf it has locked
is what the code computes from the leaf: `search_for_insert_generic`, the choice of the slot, the stores of
`assign_slot_generic`, `calculate_split_point`, the split and its propagation, or the new layers.

Simplifications, besides those of `Model/Whole.lean`:

* the loads that the holder of a lock makes in the leaf it has locked (the search, the choice of a slot, the old value) are one
  step: nobody else stores there (C58);
* the numbers (addresses) of new leaves and new layers come with the step; a step with numbers that are in use, or with too
  few or too many new layers, is a wait;
* a leaf has a left neighbour (`can_reuse_slot0`, leaf24.rs:954) unless it is the first one of its layer, number 1;
* a split that would go between two equal slices does not go on (finding 1 in DESIGN.md), and an insert that meets more than 128 siblings in
  a sublayer starts again at the top of the sublayer (finding 5): `Model/OpsAll.lean` has what the code does there;
* an insert that meets a null value (generic.rs:1715) starts again at the root pointer of the layer; a slot that says "value"
  and has a layer pointer or the other way round ends the call (`err`).  That neither happens is part of the proofs;
* `count` (generic.rs:1762, 1788, 1850) is a natural number.
-/
namespace Verif.Ops
open Verif.Internode (upd)
open Verif.Perm (size get back)
open Verif.Spec (Bytes)
open Verif.Tree (Leaf Cell searchForInsert findAlt calcSplitPoint ksufKeylenx leafWidth)
open Verif.Whole (LAct inIndex isLocked)
variable {V : Type}

/-- A call: `get` (generic.rs:443-480) or `insert` (generic.rs:1509-1545). -/
inductive Op (V : Type) where
  | get (d : Bytes)
  | insert (d : Bytes) (v : V)

/-- The key of a call. -/
def Op.key : Op V → Bytes
  | .get d => d
  | .insert d _ => d

/-- What an insert does after it has dropped its lock. -/
inductive After (V : Type) where
  /-- go on in layer `q`, with the key shifted `m` times: generic.rs:1795-1801 -/
  | layer (q m : Nat)
  /-- count the new key and return `None`: generic.rs:1762-1766, 1788-1792, 1848-1855 -/
  | count
  /-- return the old value: generic.rs:1704-1713 -/
  | ret (r : Option V)
  /-- return an error: generic.rs:1987-1989 -/
  | err

/-- Where a thread is in its call.  `L` is the layer, `m` how often the key has been shifted, `x` the leaf it has locked. -/
inductive Ph (V : Type) where
  | idle
  /-- about to load the root pointer of layer `L`: generic.rs:662, 1570 -/
  | enter (L m : Nat)
  /-- on the way to the leaf; an insert: until it has searched the leaf it has locked -/
  | down (L m : Nat)
  /-- the check under the lock has failed, about to drop the lock and to try again: generic.rs:1638-1669 -/
  | undo (L m x : Nat)
  /-- a lookup in the leaves: generic.rs:668-824 -/
  | read (L m : Nat)
  /-- about to make store number `n` to slot `t`, which is to be published at `pos`: generic.rs:1883-1914 -/
  | store (L m x t pos off n : Nat)
  /-- about to publish the slot: generic.rs:1758, 1783 -/
  | publish (L m x pos off : Nat)
  /-- in the stores that turn a value into a layer: generic.rs:1820-1846 -/
  | conv (L m x : Nat)
  /-- has set the split mark, about to freeze the permutation: leaf24.rs:1284 -/
  | freeze (L m x sp : Nat)
  /-- is moving entries to the new leaf `y` and linking it: leaf24.rs:1284-1340, 1432-1490 -/
  | part (L m x y : Nat)
  /-- in the propagation of the split, `n` of the two leaves unlocked: propagation.rs:172-524 -/
  | prop (L m x y n : Nat)
  /-- is done with the leaf -/
  | close (L x : Nat) (a : After V)
  /-- about to store the version without the lock -/
  | drop (L x : Nat) (a : After V)
  /-- about to increment the counter -/
  | count
  | ret (r : Option V)
  | err

/-- The tree, the calls that the threads have made last, where they are, and the counter. -/
structure St (V : Type) where
  w : Whole.St V
  op : Nat → Op V
  ph : Nat → Ph V
  count : Nat

/-- The key in a layer: generic.rs:1545, 1798. -/
def keyAt (o : Op V) (m : Nat) : Key := Key.shiftTimes m (Key.mk' o.key)

/-- The value of an insert. -/
def Op.val : Op V → Option V
  | .get _ => none
  | .insert _ v => some v

/-- Whether a call is an insert. -/
def Op.put : Op V → Bool
  | .get _ => false
  | .insert _ _ => true

/-- Store number `n` of `assign_slot_generic`: generic.rs:1893-1912.  A key without a suffix needs three. -/
def assign (b : Leaf V) (i t : Nat) (k : Key) (v : V) : Nat → LAct V
  | 0 => .write i t k.ikey (b.klx t) (b.cell t) (b.ksuf t)
  | 1 => .write i t (b.ikey t) (b.klx t) (.val v) (b.ksuf t)
  | 2 => .write i t (b.ikey t) (if k.hasSuffix then ksufKeylenx else k.currentLen) (b.cell t) (b.ksuf t)
  | _ => .write i t (b.ikey t) (b.klx t) (b.cell t) (if k.hasSuffix then some k.suffix else b.ksuf t)

/-- A step: what it is in the tree, and where the thread is afterwards. -/
abbrev Next (V : Type) := Option (Whole.Act V) × Ph V

/-- The leaf has to be split: `handle_leaf_split_generic`, generic.rs:1985-2032. -/
def splitOr (L m i x : Nat) (b : Leaf V) (ik : Nat) : Next V :=
  match calcSplitPoint b ik with
  | none => (some (.inLayer L (.finish i)), .drop L x .err)
  | some sp => (some (.inLayer L (.split i)), .freeze L m x sp)

/-- An insert of `d` and `v` has locked the leaf of its key and looks what there is to do: generic.rs:1673-1858. -/
def decide (s : Whole.St V) (L m i x : Nat) (d : Bytes) (v : V) (qs : List Nat) : Next V :=
  let b := ((s.f.layer L).leaf x).b
  let k := Key.shiftTimes m (Key.mk' d)
  match searchForInsert b k 0 (size 5 b.perm) with
  | .found t =>
    match b.cell t with
    | .null => (some (.inLayer L (.finish i)), .drop L x (.layer L m))
    | .val old => (some (.inLayer L (.update i t v)), .close L x (.ret (some old)))
    | .layer _ => (none, .err)
  | .layer t =>
    match b.cell t with
    | .layer q => (some (.inLayer L (.finish i)), .drop L x (.layer q (m + 1)))
    | _ => (none, .err)
  | .conflict t =>
    match Forest.conflict s.f L x t d v qs with
    | some _ => (some (.convert L i t d v qs), .conv L m x)
    | none => (none, .down L m)
  | .notFound pos =>
    if leafWidth ≤ size 5 b.perm then splitOr L m i x b k.ikey
    else if back 5 24 b.perm = 0 ∧ Race.reuse0 b (x != 1) k.ikey = false then
      match findAlt b.perm 1 (leafWidth - size 5 b.perm - 1) with
      | some (t, off) => (none, .store L m x t pos off 0)
      | none => splitOr L m i x b k.ikey
    else (none, .store L m x (back 5 24 b.perm) pos 0 0)

/-- What comes after the lock has been dropped. -/
def After.ph : After V → Ph V
  | .layer q m => .enter q m
  | .count => .count
  | .ret r => .ret r
  | .err => .err

/-- Where an insert is after the check under the lock: generic.rs:1626-1671. -/
def checked (s : Whole.St V) (L m i : Nat) : Ph V :=
  match (s.side L).ix.pc i, (s.side L).ins i with
  | .sect o _ _, .check x => if Whole.moved (s.f.layer L) x o.key then .undo L m x else .down L m
  | _, _ => .down L m

/-- On the way to a leaf: generic.rs:662-667, 1575-1599, 1626-1671. -/
def down (s : Whole.St V) (o : Op V) (L m i : Nat) (qs : List Nat) : Next V :=
  match (s.side L).ix.pc i with
  | .look _ _ => (some (.inLayer L (.enter i)), .read L m)
  | .adv _ _ _ _ => (some (.inLayer L (.enter i)), .down L m)
  | .sect _ _ _ =>
    match (s.side L).owns i, o with
    | some x, .insert d v => decide s L m i x d v qs
    | none, .insert _ _ => (some (.inLayer L (.step i)), checked s L m i)
    | _, .get _ => (some (.inLayer L (.step i)), .down L m)
  | .fail _ _ => (none, .err)
  | p => (if inIndex p then some (.inLayer L (.walk i)) else none, .down L m)

/-- What a lookup does when it has the answer of a layer: generic.rs:768-783, 811-824. -/
def answer (m : Nat) : Race.Out V → Ph V
  | .value v => .ret (some v)
  | .absent => .ret none
  | .descend q => .enter q (m + 1)
  | .misread => .err

/-- In the propagation of a split: generic.rs:2060-2070, propagation.rs:172-524.  Both leaves are unlocked as soon as their parent
is right. -/
def spread (s : Whole.St V) (L m i x y n : Nat) : Next V :=
  let l := s.side L
  if n = 0 ∧ (l.ix.heap.node (l.num y)).locked = false then (some (.inLayer L (.release y)), .prop L m x y 1)
  else if n = 1 ∧ (l.ix.heap.node (l.num x)).locked = false then (some (.inLayer L (.unlock x)), .prop L m x y 2)
  else
    match l.ix.pc i with
    | .climb _ _ => if n = 2 then (none, .down L m) else (none, .prop L m x y n)
    | .fail _ _ => (none, .err)
    | _ => (some (.inLayer L (.walk i)), .prop L m x y n)

/-- The next step of thread `i`; `y` is the number of a new leaf and `qs` those of new layers, should they be needed. -/
def next (s : St V) (i y : Nat) (qs : List Nat) : Next V :=
  let o := s.op i
  match s.ph i with
  | .idle => (none, .idle)
  | .enter L m => (some (.inLayer L (.call i (keyAt o m) o.put)), .down L m)
  | .down L m => down s.w o L m i qs
  | .undo L m x => (some (.inLayer L (.unlock x)), .down L m)
  | .read L m =>
    match (s.w.f.layer L).rd i with
    | .done _ r _ => (none, answer m r)
    | _ => (some (.inLayer L (.read i)), .read L m)
  | .store L m x t pos off n =>
    match o with
    | .get _ => (none, .err)
    | .insert _ v =>
      (some (.inLayer L (assign ((s.w.f.layer L).leaf x).b i t (keyAt o m) v n)),
        if n < 3 then .store L m x t pos off (n + 1) else .publish L m x pos off)
  | .publish L _ x pos off => (some (.inLayer L (.publish i pos off)), .close L x .count)
  | .conv L m x =>
    (some (.inLayer L (.hold i)),
      match (s.w.f.layer L).hold x with
      | .conv _ _ _ st => if st < 4 then .conv L m x else .close L x .count
      | _ => .conv L m x)
  | .freeze L m x sp =>
    let b := ((s.w.f.layer L).leaf x).b
    if (s.w.f.layer L).used y = false ∧ y ≠ 0 ∧ b.ikey (get 5 b.perm (sp - 1)) < b.ikey (get 5 b.perm sp) then
      (some (.inLayer L (.freeze i sp y)), .part L m x y)
    else (none, .freeze L m x sp)
  | .part L m x z =>
    (some (.inLayer L (.hold i)),
      match (s.w.f.layer L).hold x with
      | .publish _ _ => .prop L m x z 0
      | _ => .part L m x z)
  | .prop L m x z n => spread s.w L m i x z n
  | .close L x a => (some (.inLayer L (.finish i)), .drop L x a)
  | .drop L x a => (some (.inLayer L (.unlock x)), a.ph)
  | .count => (none, .ret none)
  | .ret r => (none, .ret r)
  | .err => (none, .err)

/-- No call is under way. -/
def Ph.over : Ph V → Bool
  | .idle | .ret _ => true
  | _ => false

/-- What can happen next. -/
inductive Act (V : Type) where
  /-- thread `i` calls `o` -/
  | call (i : Nat) (o : Op V)
  /-- thread `i` makes its next step -/
  | run (i y : Nat) (qs : List Nat)

/-- What happens in the tree. -/
def onTree (s : St V) : Act V → Option (Whole.Act V)
  | .call _ _ => none
  | .run i y qs => (next s i y qs).1

/-- The counter is incremented: generic.rs:1762, 1788, 1850. -/
def counted : Ph V → Nat
  | .count => 1
  | _ => 0

/-- The effect of what happens. -/
def act (fixed strict : Bool) (s : St V) : Act V → St V
  | .call i o =>
    if (s.ph i).over then { s with op := upd s.op i o, ph := upd s.ph i (.enter 0 0) } else s
  | .run i y qs =>
    { s with
      w := match (next s i y qs).1 with
        | none => s.w
        | some a => Whole.act fixed strict s.w a
      ph := upd s.ph i (next s i y qs).2
      count := s.count + counted (s.ph i) }

end Verif.Ops
