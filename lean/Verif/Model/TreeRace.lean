import Verif.Model.Tree
/-!
# Many threads on one tree

`get` and `insert` of any number of threads, interleaved.  A step of a thread is one visit to a node: reading a parent
pointer, choosing a child, following one next pointer, searching a leaf, or one critical section of `insert` on a leaf.

Simplifications:

* a visit is atomic.  That a visit to a leaf behaves as if atomic is the subject of `Model/LeafRace.lean`; reading an
  internode is validated by its version word (generic.rs:912-921).
* a critical section is atomic, from `lock` to the release of the last lock, including the propagation of a split to the
  parents and the increment of the key count that follows it.  Lookups during a split are the subject of
  `Model/ChainRace.lean`.
* no visit waits: between critical sections no node is locked, no permutation frozen and no next pointer marked.
-/
namespace Verif.Threads
open Verif.Spec (Bytes)
open Verif.Internode (Arr upd)
open Verif.Perm (size get back insertFromBack swapFreeSlots)
open Verif.Tree
variable {V : Type}

/-- A call: `get` (generic.rs:443-480) or `insert` (generic.rs:1509-1545). -/
inductive Op (V : Type) where
  | get (d : Bytes)
  | insert (d : Bytes) (v : V)
deriving DecidableEq

/-- The key of a call (the argument of `get` and `insert`, generic.rs:443, 1509). -/
def Op.key : Op V → Bytes
  | .get d => d
  | .insert d _ => d

/-- Where a thread stands. -/
inductive Pc (V : Type) where
  | idle
  /-- `maybe_parent_generic` at node `p`: generic.rs:832-854. -/
  | climb (o : Op V) (k : Key) (p : Nat)
  /-- `reach_leaf_concurrent_generic` from the top `r` of the layer, at node `p`: generic.rs:866-926. -/
  | desc (o : Op V) (k : Key) (r p : Nat)
  /-- `advance_to_key_by_bound_generic` at leaf `l`, `h` hops left: generic.rs:1434-1487. -/
  | adv (o : Op V) (k : Key) (r h l : Nat)
  /-- About to lock leaf `l`: generic.rs:1599. -/
  | sect (o : Op V) (k : Key) (r l : Nat)
  /-- About to search leaf `l`: generic.rs:668-776. -/
  | look (o : Op V) (k : Key) (l : Nat)
  /-- Found nothing in leaf `l`, about to read its next pointer: generic.rs:786-824. -/
  | next (o : Op V) (k : Key) (l : Nat)
  | done (o : Op V) (r : Option V)
  /-- A panic, an `Err`, or undefined behaviour. -/
  | fail (o : Op V) (e : Err)

/-- What follows a critical section of `insert`: another round of the loop, or the end. -/
inductive Next (V : Type) where
  | again (k : Key) (lr : Nat)
  | done (r : Option V)

/-- One critical section of `insert_concurrent_generic`: generic.rs:1599-1873. -/
def crit (v : V) (t : Tree V) (k : Key) (r l : Nat) : Except Err (Tree V × Next V) := do
  let b ← leafAt t l
  let t ← lock t l
  let moved ← match t.next l with
    | none => .ok false
    | some q => do
      let nb ← ikeyBound t q
      .ok (decide (nb ≤ k.ikey))
  if moved then .ok (unlock t l, .again k r)
  else
    match searchForInsert b k 0 (size 5 b.perm) with
    | .found s =>
      match b.cell s with
      | .null => .ok (unlock t l, .again k r)
      | .layer _ => .error .misread
      | .val old =>
        .ok (unlock { t with body := upd t.body l { b with cell := upd b.cell s (.val v) } } l, .done (some old))
    | .notFound pos =>
      if leafWidth ≤ size 5 b.perm then do
        let t ← handleLeafSplit t l k.ikey
        .ok (t, .again k r)
      else
        let s := back 5 24 b.perm
        if s = 0 ∧ canReuseSlot0 t l k.ikey = false then
          match findAlt b.perm 1 (leafWidth - size 5 b.perm - 1) with
          | some (alt, off) =>
            let nb := { assignSlot b alt k v with
              perm := (insertFromBack 5 24 (swapFreeSlots 5 b.perm 23 (23 - off)) pos).1 }
            .ok ({ unlock { t with body := upd t.body l nb } l with count := t.count + 1 }, .done none)
          | none => do
            let t ← handleLeafSplit t l k.ikey
            .ok (t, .again k r)
        else
          let nb := { assignSlot b s k v with perm := (insertFromBack 5 24 b.perm pos).1 }
          .ok ({ unlock { t with body := upd t.body l nb } l with count := t.count + 1 }, .done none)
    | .layer s =>
      match b.cell s with
      | .layer q => .ok (unlock t l, .again k.shift q)
      | _ => .error .misread
    | .conflict s => do
      let (t, p) ← createLayer t b s k v
      let nb := { b with ksuf := upd b.ksuf s none, klx := upd b.klx s layerKeylenx,
                         cell := upd b.cell s (.layer p) }
      .ok ({ unlock { t with body := upd t.body l nb } l with count := t.count + 1 }, .done none)

/-- Search of a leaf by `get`: generic.rs:668-776, as in `Tree.leafLoop`. -/
def lookStep (t : Tree V) (o : Op V) (k : Key) (l : Nat) : Pc V :=
  match leafAt t l with
  | .error e => .fail o e
  | .ok b =>
    match searchGet b k 0 (size 5 b.perm) with
    | some s =>
      if layerKeylenx ≤ b.klx s then
        match b.cell s with
        | .layer q => .climb o k.shift q
        | _ => .fail o .misread
      else
        match b.cell s with
        | .val v => .done o (some v)
        | _ => .fail o .misread
    | none => .next o k l

/-- One step of a thread.  `fixed` is false for the code as it is; with `fixed` an insert that has exceeded the hop limit
starts again at the root of its layer instead of the root of the tree (generic.rs:1590-1593). -/
def step (fixed : Bool) (t : Tree V) : Pc V → Tree V × Pc V
  | .climb o k p =>
    match t.kind p with
    | none => (t, .fail o .badDeref)
    | some _ =>
      match t.parent p with
      | none => (t, .desc o k p p)
      | some q => (t, .climb o k q)
  | .desc o k r p =>
    match t.kind p with
    | none => (t, .fail o .badDeref)
    | some .leaf =>
      match o with
      | .get _ => (t, .look o k p)
      | .insert _ _ => (t, .adv o k r maxBlinkHops p)
    | some .inode =>
      match (t.arr p).child (KSearch.upperBoundDirect k.ikey (t.arr p).nkeys (t.arr p).ikey) with
      | none => (t, .desc o k r r)
      | some c => (t, .desc o k r c)
  | .adv o k r 0 _ => (t, .climb o k (if fixed then r else t.root))
  | .adv o k r (h + 1) l =>
    match t.next l with
    | none => (t, .sect o k r l)
    | some q =>
      match ikeyBound t q with
      | .error e => (t, .fail o e)
      | .ok nb => if nb ≤ k.ikey then (t, .adv o k r h q) else (t, .sect o k r l)
  | .sect (.insert d v) k r l =>
    match crit v t k r l with
    | .error e => (t, .fail (.insert d v) e)
    | .ok (t', .again k' lr) => (t', .climb (.insert d v) k' lr)
    | .ok (t', .done x) => (t', .done (.insert d v) x)
  | .look o k l => (t, lookStep t o k l)
  | .next o k l =>
    match t.next l with
    | none => (t, .done o none)
    | some q =>
      match ikeyBound t q with
      | .error e => (t, .fail o e)
      | .ok nb => if nb ≤ k.ikey then (t, .look o k q) else (t, .done o none)
  | pc => (t, pc)

/-- The tree and all threads. -/
structure St (V : Type) where
  tree : Tree V
  pc : Nat → Pc V

/-- Thread `i` calls `o`, or goes one step further. -/
inductive Act (V : Type) where
  | call (i : Nat) (o : Op V)
  | run (i : Nat)

/-- A call begins by building the key (key.rs:90-107, a panic for long keys) and loading the root pointer
(generic.rs:662, 1570). -/
def begin (t : Tree V) (o : Op V) : Pc V :=
  match Key.new? o.key with
  | none => .fail o .panic
  | some k => .climb o k t.root

/-- One step of the machine: the next statement of one thread of `get_concurrent_generic` (generic.rs:641-826) or
`insert_concurrent_generic` (generic.rs:1549-1874). -/
def act (fixed : Bool) (s : St V) : Act V → St V
  | .call i o =>
    match s.pc i with
    | .idle => { s with pc := upd s.pc i (begin s.tree o) }
    | .done _ _ => { s with pc := upd s.pc i (begin s.tree o) }
    | _ => s
  | .run i => ⟨(step fixed s.tree (s.pc i)).1, upd s.pc i (step fixed s.tree (s.pc i)).2⟩

end Verif.Threads
