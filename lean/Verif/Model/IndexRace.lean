import Verif.Model.Internode
/-!
# Lookups and inserts while splits move up the index

Interleaving machine for one layer of the tree (internodes and leaves), for keys with different slices (in the main tree:
keys of exactly eight bytes).  Any number of threads look up and insert.  A descent reads an internode load by load
(`reach_leaf_concurrent_generic`, generic.rs:866-926, `upper_bound_internode_generic`, ksearch.rs:365-393); a split is
carried upwards lock by lock (`propagation_loop`, propagation.rs:172-524), and the insertion of the new child into an
internode is made store by store (`insert_key_and_child`, internode.rs:433-458).

Simplifications:

* memory is sequentially consistent;
* nodes are numbered, 0 is the null pointer; nothing is ever freed (C34 and C39 are about reclamation);
* a leaf is the sorted list of its entries, and a visit to a leaf, the section of an insert that needs no split, and the
  split of a leaf up to the publication of its right half are one step each; what readers see inside them is the subject of
  `Model/LeafRace.lean` and `Model/ChainRace.lean`;
* `split_into` of an internode is one step: it runs with the split mark set, so that no reader that has loaded something in
  between can pass `has_changed`; so are the creation of a new root and the release of the locks at the end of a round;
* the version word is a lock bit, a split mark and two unbounded counters (the fields and their wrap-around are the
  subject of C19-C22);
* an insert that exceeds the hop limit starts again at the top of its layer (what it does in a sublayer is the subject of
  C33);
* the number of keys is left out.
-/
namespace Verif.Index
open Verif.Internode (Arr upd shiftRight insertKeyAndChild splitInto)
variable {V : Type}

/-- Leaf capacity `WIDTH_24`: leaf24.rs:49. -/
def leafWidth : Nat := 24
/-- Internode capacity `WIDTH`: internode.rs:82. -/
def inodeWidth : Nat := 15
/-- `MAX_PROPAGATION_ITERATIONS`: propagation.rs:54. -/
def maxRounds : Nat := 64
/-- `MAX_STALE_PARENT_RETRIES`: propagation.rs:57. -/
def maxStale : Nat := 16
/-- `MAX_BLINK_HOPS`: generic.rs:1420. -/
def maxHops : Nat := 128

/-- A node: leaf24.rs:60-140 or internode.rs:82-137.  `ht` is 0 for a leaf and the field `height` plus one for an
internode.  `lo` is `ikey_bound()` of a leaf (leaf24.rs:932-940; 0 for the first leaf, whose bound nobody reads).
Not in the code: `lo` of an internode is the `lo` of its first child, and `base` is what its arrays held when it was last
unlocked. -/
structure Node (V : Type) where
  ht : Nat
  lo : Nat
  ents : List (Nat × V)
  next : Nat
  arr : Arr Nat
  base : Arr Nat
  parent : Nat
  rootf : Bool
  locked : Bool
  splitting : Bool
  vs : Nat
  vi : Nat

/-- Arrays of a new internode: internode.rs:139-170. -/
def emptyArr : Arr Nat := ⟨0, fun _ => 0, fun _ => 0⟩

/-- A call: `get` (generic.rs:443-480) or `insert` (generic.rs:1509-1545). -/
inductive Op (V : Type) where
  | get (t : Nat)
  | insert (t : Nat) (v : V)

/-- The key of a call. -/
def Op.key : Op V → Nat
  | .get t => t
  | .insert t _ => t

/-- How a call can fail in the split propagation: propagation.rs:199-209, 275-283, 330-346 and the panic on a failed CAS in
root_creation.rs. -/
inductive Err where
  | rounds
  | nullParent
  | splitFailed
  | rootCas
deriving DecidableEq

/-- Local variables of `propagation_loop`: propagation.rs:172-193.  `l` is locked, `y` split-locked; `r` is the layer root the
insert started from. -/
structure Ctx (V : Type) where
  o : Op V
  r : Nat
  l : Nat
  y : Nat
  sep : Nat
  main : Bool
  layer : Bool
  rounds : Nat
  stale : Nat

/-- One store to the arrays of an internode. -/
inductive Store where
  | key (i x : Nat)
  | child (i c : Nat)
  | nkeys (n : Nat)
deriving DecidableEq

/-- Effect of a store: internode.rs:310-372. -/
def Store.apply (a : Arr Nat) : Store → Arr Nat
  | .key i x => { a with ikey := upd a.ikey i x }
  | .child i c => { a with child := upd a.child i c }
  | .nkeys n => { a with nkeys := n }

/-- The stores of the loop `for i in (p..p+k).rev()`: internode.rs:442-448. -/
def shiftStores (a : Arr Nat) (p : Nat) : Nat → List Store
  | 0 => []
  | k + 1 => .key (p + k + 1) (a.ikey (p + k)) :: .child (p + k + 2) (a.child (p + k + 1)) :: shiftStores a p k

/-- The stores of `insert_key_and_child`, in order: internode.rs:433-458.  (Each cell is read before it is overwritten.) -/
def insertStores (a : Arr Nat) (p ik c : Nat) : List Store :=
  shiftStores a p (a.nkeys - p) ++ [.key p ik, .child (p + 1) c, .nkeys (a.nkeys + 1)]

/-- Where a thread stands. -/
inductive Pc (V : Type) where
  | idle
  /-- `maybe_parent_generic` at node `p`: generic.rs:832-854. -/
  | climb (o : Op V) (p : Nat)
  /-- `reach_leaf_concurrent_generic` from `r`, about to call `stable` on node `p`: generic.rs:890. -/
  | stab (o : Op V) (r p : Nat)
  /-- About to load `nkeys` of internode `p`; `w` is the version seen by `stable`: ksearch.rs:369. -/
  | nk (o : Op V) (r p : Nat) (w : Nat × Nat)
  /-- In the binary search between `a` and `b`: ksearch.rs:373-390. -/
  | cmp (o : Op V) (r p : Nat) (w : Nat × Nat) (a b : Nat)
  /-- About to load child `i`: generic.rs:904. -/
  | chld (o : Op V) (r p : Nat) (w : Nat × Nat) (i : Nat)
  /-- About to call `has_changed`; the child is `c`: generic.rs:916. -/
  | chk (o : Op V) (r p : Nat) (w : Nat × Nat) (c : Nat)
  /-- About to call `has_split`: generic.rs:918. -/
  | chk2 (o : Op V) (r p : Nat) (w : Nat × Nat)
  /-- `get` about to search leaf `l`: generic.rs:668-776. -/
  | look (o : Op V) (l : Nat)
  /-- `get` found nothing in leaf `l`, about to read its next pointer: generic.rs:786-824. -/
  | nxt (o : Op V) (l : Nat)
  /-- `advance_to_key_by_bound_generic` at leaf `l`, `h` hops left: generic.rs:1434-1487. -/
  | adv (o : Op V) (r h l : Nat)
  /-- About to lock leaf `l`: generic.rs:1599. -/
  | sect (o : Op V) (r l : Nat)
  /-- Beginning of a round of `propagation_loop`: propagation.rs:197-222. -/
  | par (c : Ctx V)
  /-- About to lock the parent `p`: propagation.rs:300-304. -/
  | lck (c : Ctx V) (p : Nat)
  /-- Has locked `p`: propagation.rs:314-370. -/
  | rechk (c : Ctx V) (p : Nat)
  /-- In `insert_key_and_child`, with these stores still to make: propagation.rs:376-405. -/
  | ins (c : Ctx V) (p : Nat) (todo : List Store)
  | done (o : Op V) (r : Option V)
  /-- A panic or an `Err`. -/
  | fail (o : Op V) (e : Err)

/-- The nodes of the layer.  In the main tree `root` is the root pointer; in a sublayer it is the pointer in the leaf above,
which always names the first node of the layer.  Not in the code: `top`, the current root of the layer. -/
structure Heap (V : Type) where
  node : Nat → Node V
  fresh : Nat
  root : Nat
  top : Nat

/-- Change one node. -/
def Heap.mod (s : Heap V) (n : Nat) (f : Node V → Node V) : Heap V := { s with node := upd s.node n (f (s.node n)) }

/-- `lock`: nodeversion.rs:375-420. -/
def Node.lock (n : Node V) : Node V := { n with locked := true }
/-- Release of a lock: nodeversion.rs:137-187, 560-600.  With the split mark the split counter goes up and the root flag is
cleared, otherwise the insert counter goes up.  The arrays become visible (`base`). -/
def Node.unlock (n : Node V) : Node V :=
  if n.splitting then { n with locked := false, splitting := false, vs := n.vs + 1, vi := 0, rootf := false, base := n.arr }
  else { n with locked := false, vi := n.vi + 1, base := n.arr }

/-- Entry with key `t`. -/
def lookup (t : Nat) : List (Nat × V) → Option V
  | [] => none
  | e :: es => if e.1 = t then some e.2 else lookup t es

/-- Put an entry at its place, or replace the value: generic.rs:1667-1783. -/
def put (t : Nat) (v : V) : List (Nat × V) → List (Nat × V)
  | [] => [(t, v)]
  | e :: es => if e.1 = t then (t, v) :: es else if t < e.1 then (t, v) :: e :: es else e :: put t v es

/-- `validate_membership`: parent_locking.rs:22-46: first position from `i` holding the child. -/
def findChild (a : Arr Nat) (c : Nat) (i : Nat) : Nat → Option Nat
  | 0 => none
  | n + 1 => if a.child i = c then some i else findChild a c (i + 1) n

/-- `update_sibling_children_parents`: propagation.rs:587-615, internode.rs:634-679. -/
def setParents (s : Heap V) (a : Arr Nat) (sib : Nat) : Nat → Heap V
  | 0 => s
  | n + 1 => (setParents s a sib n).mod (a.child n) (fun x => { x with parent := sib })

/-- First key of the right half: leaf24.rs:1284-1300, 1336. -/
def firstKey : List (Nat × V) → Nat
  | [] => 0
  | e :: _ => e.1

/-- Split of the full, locked leaf `l` up to the link to the new leaf `s.fresh`: generic.rs:1966-2070, leaf24.rs:1246-1340,
1432-1490.  The keys have different slices, so the split point is the middle (leaf24.rs:1185-1244). -/
def splitLeaf (s : Heap V) (l : Nat) : Heap V :=
  let n := s.node l
  let right := n.ents.drop (leafWidth / 2)
  let y : Node V := { ht := 0, lo := firstKey right, ents := right, next := n.next, arr := emptyArr, base := emptyArr, parent := 0,
                      rootf := false, locked := true, splitting := true, vs := 0, vi := 0 }
  let l' : Node V := { n with ents := n.ents.take (leafWidth / 2), next := s.fresh, locked := true, splitting := true }
  { s with node := upd (upd s.node l l') s.fresh y, fresh := s.fresh + 1 }

/-- Arrays of a new root: root_creation.rs (`set_child`, `set_ikey`, `set_child`, `set_nkeys`). -/
def rootArr (l y sep : Nat) : Arr Nat := ⟨1, upd (fun _ => 0) 0 sep, upd (upd (fun _ => 0) 0 l) 1 y⟩

/-- `create_main_root` and `promote_layer_root` (root_creation.rs) with the release of both locks, propagation.rs:229-272. -/
def newRoot (main : Bool) (s : Heap V) (c : Ctx V) : Heap V :=
  let n : Node V := { ht := (s.node c.l).ht + 1, lo := (s.node c.l).lo, ents := [], next := 0, arr := rootArr c.l c.y c.sep,
                      base := rootArr c.l c.y c.sep, parent := 0, rootf := true, locked := false, splitting := false, vs := 0, vi := 0 }
  let f := fun x : Node V => ({ x with parent := s.fresh, rootf := false } : Node V).unlock
  let t : Heap V := { s with node := upd s.node s.fresh n, fresh := s.fresh + 1, root := if main then s.fresh else s.root,
                             top := s.fresh }
  (t.mod c.y f).mod c.l f

/-- Split of the full parent `p` (`splitting` is set; the new sibling is `s.fresh`): propagation.rs:411-510. -/
def splitInode (s : Heap V) (c : Ctx V) (p idx : Nat) : Heap V × Nat :=
  let n := s.node p
  let x := splitInto inodeWidth n.arr emptyArr idx c.sep c.y
  let sib : Node V := { ht := n.ht, lo := x.2.2.1, ents := [], next := 0, arr := x.2.1, base := x.2.1, parent := 0,
                        rootf := false, locked := true, splitting := true, vs := 0, vi := 0 }
  let n' : Node V := { n with arr := x.1, base := x.1, splitting := true }
  let t : Heap V := { s with node := upd (upd s.node p n') s.fresh sib, fresh := s.fresh + 1 }
  let t := setParents t x.2.1 s.fresh (x.2.1.nkeys + 1)
  let t := t.mod c.y (fun z => { z with parent := if x.2.2.2 then p else s.fresh })
  ((t.mod c.y Node.unlock).mod c.l Node.unlock, x.2.2.1)

/-- Has a reader that saw version `w` reason to try again (`has_changed`, nodeversion.rs:493-510)?  `strict` is false for the
code; with `strict` a lock that is held counts as a change. -/
def changed (strict : Bool) (n : Node V) (w : Nat × Nat) : Bool :=
  n.vs != w.1 || n.vi != w.2 || n.splitting || (strict && n.locked)

/-- One step of a thread.  A step that returns its arguments is a wait.  `main` says whether the layer is the main tree. -/
def step (strict main : Bool) (s : Heap V) : Pc V → Heap V × Pc V
  | .climb o p => (s, if (s.node p).parent = 0 then .stab o p p else .climb o (s.node p).parent)
  | .stab o r p =>
    let n := s.node p
    if n.locked then (s, .stab o r p)
    else if n.ht = 0 then
      match o with
      | .get _ => (s, .look o p)
      | .insert _ _ => (s, .adv o r maxHops p)
    else (s, .nk o r p (n.vs, n.vi))
  | .nk o r p w => (s, .cmp o r p w 0 (s.node p).arr.nkeys)
  | .cmp o r p w a b =>
    if a < b then
      let m := (a + b) / 2
      let x := (s.node p).arr.ikey m
      if o.key < x then (s, .cmp o r p w a m)
      else if o.key = x then (s, .chld o r p w (m + 1))
      else (s, .cmp o r p w (m + 1) b)
    else (s, .chld o r p w a)
  | .chld o r p w i =>
    let c := (s.node p).arr.child i
    (s, if c = 0 then .stab o r r else .chk o r p w c)
  | .chk o r p w c => (s, if changed strict (s.node p) w then .chk2 o r p w else .stab o r c)
  | .chk2 o r p w => (s, if (s.node p).vs ≠ w.1 then .stab o r r else .stab o r p)
  | .look o l =>
    let n := s.node l
    if n.locked then (s, .look o l)
    else match lookup o.key n.ents with
      | some v => (s, .done o (some v))
      | none => (s, .nxt o l)
  | .nxt o l =>
    let q := (s.node l).next
    (s, if q ≠ 0 ∧ (s.node q).lo ≤ o.key then .look o q else .done o none)
  | .adv o r 0 _ => (s, .climb o r)
  | .adv o r (h + 1) l =>
    let q := (s.node l).next
    (s, if q ≠ 0 ∧ (s.node q).lo ≤ o.key then .adv o r h q else .sect o r l)
  | .sect (.insert t v) r l =>
    let n := s.node l
    if n.locked then (s, .sect (.insert t v) r l)
    else if n.next ≠ 0 ∧ (s.node n.next).lo ≤ t then (s.mod l (fun n => n.lock.unlock), .climb (.insert t v) r)
    else
      match lookup t n.ents with
      | some old => (s.mod l (fun n => ({ n.lock with ents := put t v n.ents } : Node V).unlock), .done (.insert t v) (some old))
      | none =>
        if n.ents.length < leafWidth then
          (s.mod l (fun n => ({ n.lock with ents := put t v n.ents } : Node V).unlock), .done (.insert t v) none)
        else
          let isMain := main && n.rootf && s.root == l
          let isLayer := n.rootf && n.parent == 0 && !isMain
          (splitLeaf s l, .par ⟨.insert t v, r, l, s.fresh, firstKey (n.ents.drop (leafWidth / 2)), isMain, isLayer, 0, 0⟩)
  | .par c =>
    let p := (s.node c.l).parent
    if maxRounds ≤ c.rounds then ((s.mod c.y Node.unlock).mod c.l Node.unlock, .fail c.o .rounds)
    else if p = 0 then
      if c.layer then (newRoot false s c, .climb c.o c.r)
      else if c.main then
        if s.root = c.l then (newRoot true s c, .climb c.o c.r)
        else ((s.mod c.y Node.unlock).mod c.l Node.unlock, .fail c.o .rootCas)
      else ((s.mod c.y Node.unlock).mod c.l Node.unlock, .fail c.o .nullParent)
    else (s, .lck { c with rounds := c.rounds + 1 } p)
  | .lck c p => if (s.node p).locked then (s, .lck c p) else (s.mod p Node.lock, .rechk c p)
  | .rechk c p =>
    let n := s.node p
    if (s.node c.l).parent ≠ p then (s.mod p Node.unlock, .par { c with stale := 0 })
    else
      match findChild n.arr c.l 0 (n.arr.nkeys + 1) with
      | none =>
        if maxStale ≤ c.stale then
          (((s.mod c.y Node.unlock).mod p Node.unlock).mod c.l Node.unlock, .fail c.o .splitFailed)
        else (s.mod p Node.unlock, .par { c with stale := c.stale + 1 })
      | some idx =>
        if n.arr.nkeys < inodeWidth then (s, .ins { c with stale := 0 } p (insertStores n.arr idx c.sep c.y))
        else
          let isMain := main && s.root == p
          let isLayer := !isMain && n.parent == 0 && n.rootf
          let x := splitInode s c p idx
          (x.1, .par ⟨c.o, c.r, p, s.fresh, x.2, isMain, isLayer, c.rounds, 0⟩)
  | .ins c p (st :: todo) => (s.mod p (fun n => { n with arr := st.apply n.arr }), .ins c p todo)
  | .ins c p [] =>
    let t := s.mod c.y (fun z => { z with parent := p })
    (((t.mod c.y Node.unlock).mod p Node.unlock).mod c.l Node.unlock, .climb c.o c.r)
  | pc => (s, pc)

/-- The layer and all threads. -/
structure St (V : Type) where
  heap : Heap V
  pc : Nat → Pc V

/-- Thread `i` calls `o`, or goes one step further. -/
inductive Act (V : Type) where
  | call (i : Nat) (o : Op V)
  | run (i : Nat)

/-- One step of the machine.  A call begins with the root pointer: generic.rs:662, 1570. -/
def act (strict main : Bool) (s : St V) : Act V → St V
  | .call i o =>
    match s.pc i with
    | .idle => { s with pc := upd s.pc i (.climb o s.heap.root) }
    | .done _ _ => { s with pc := upd s.pc i (.climb o s.heap.root) }
    | _ => s
  | .run i => ⟨(step strict main s.heap (s.pc i)).1, upd s.pc i (step strict main s.heap (s.pc i)).2⟩

/-- A layer of one empty leaf: generic.rs:300-330 (`new`). -/
def init : St V :=
  { heap := { node := fun _ => { ht := 0, lo := 0, ents := [], next := 0, arr := emptyArr, base := emptyArr, parent := 0, rootf := true,
                                 locked := false, splitting := false, vs := 0, vi := 0 },
              fresh := 2, root := 1, top := 1 },
    pc := fun _ => .idle }

/-- A run of the machine. -/
def run (strict main : Bool) (s : St V) (l : List (Act V)) : St V := l.foldl (act strict main) s

end Verif.Index
