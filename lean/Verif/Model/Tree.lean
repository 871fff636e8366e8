import Verif.Model.Key
import Verif.Model.Permuter
import Verif.Model.KSearch
import Verif.Model.Internode
/-!
# The sequential tree

Model of `get`, `get_ref`, `insert`, `len`, `is_empty` (`/repo/src/tree/generic.rs`), of split propagation
(`/repo/src/tree/split/*.rs`) and of the leaf operations they use (`/repo/src/leaf24.rs`), as run by one thread.

Memory is one map per node field, indexed by node number (`kind p = none`: nothing allocated at `p`).
Simplifications, all of them about what one thread can observe:

* `version` is reduced to the lock and root flags.  `has_changed` is false for a lone thread.  `stable()` waits while the
  node is dirty; here waiting on a locked node (a weaker condition for waiting) is the error `deadlock`.
* the mark bit of `next` and the frozen permutation exist only inside one call and are not represented here.
* suffixes are a map from slot to bytes; `SuffixBag` itself is modelled in `Model/Suffix.lean` (property C22).
* values are elements of `V`; ownership of the `Arc`s is modelled in `Model/Store.lean`.
* everything that would be a panic, an `Err`, a wait that never ends, a dereference of null or of a node of the other
  kind, or a pointer misread as a value is an explicit `Err` value here.  Loops without a bound in the code carry fuel;
  running out of it is the error `fuel`.
-/
namespace Verif.Tree
open Verif.Spec (Bytes)
open Verif.Internode (Arr upd insertKeyAndChild splitInto)
open Verif.Perm (size get back backAtOffset insertFromBack swapFreeSlots setSize makeSorted24)

/-- Things that must not happen. -/
inductive Err where
  /-- a panic (failed `assert!`, `expect`, `panic!`) -/
  | panic
  /-- `Err(InsertError::SplitFailed)` -/
  | splitFailed
  /-- waiting for a lock the thread itself holds, or for a flag nobody will clear -/
  | deadlock
  /-- dereference of null, of freed memory or of a node of the wrong kind -/
  | badDeref
  /-- a layer pointer read as a value or the reverse -/
  | misread
  /-- a loop that does not end -/
  | fuel
deriving DecidableEq, Repr

/-- Contents of a `leaf_values[slot]` pointer: null, a value (`keylenx < 128`) or a sublayer node (`keylenx ≥ 128`). -/
inductive Cell (V : Type) where
  | null
  | val (v : V)
  | layer (p : Nat)
deriving DecidableEq, Repr

/-- Per-slot arrays and permutation of a leaf: leaf24.rs:69-128. -/
structure Leaf (V : Type) where
  perm : BitVec 128
  ikey : Nat → Nat
  klx : Nat → Nat
  cell : Nat → Cell V
  ksuf : Nat → Option Bytes

/-- `NodeVersion::is_leaf`. -/
inductive Kind where
  | leaf
  | inode
deriving DecidableEq, Repr

/-- The whole state: node fields (leaf24.rs:69-128, internode.rs:82-137) and the tree object (tree.rs:146-176).
`fresh` is the next unused node number. -/
structure Tree (V : Type) where
  kind : Nat → Option Kind
  rootf : Nat → Bool
  locked : Nat → Bool
  parent : Nat → Option Nat
  next : Nat → Option Nat
  prev : Nat → Option Nat
  body : Nat → Leaf V
  height : Nat → Nat
  arr : Nat → Arr (Option Nat)
  fresh : Nat
  root : Nat
  count : Nat

variable {V : Type}

/-- `KSUF_KEYLENX`: leaf24.rs:31-38. -/
def ksufKeylenx : Nat := 64
/-- `LAYER_KEYLENX`: leaf24.rs:31-38. -/
def layerKeylenx : Nat := 128
/-- `WIDTH_24`: leaf24.rs:31-38. -/
def leafWidth : Nat := 24
/-- Internode width: internode.rs `WIDTH`, 15 in `MassTree` (tree.rs:283-319). -/
def inodeWidth : Nat := 15
/-- `MAX_BLINK_HOPS`: generic.rs:1423. -/
def maxBlinkHops : Nat := 128
/-- `MAX_PROPAGATION_ITERATIONS`: propagation.rs. -/
def maxPropagation : Nat := 64

/-- A fresh leaf: leaf24.rs:147-168. -/
def emptyLeaf : Leaf V :=
  ⟨Verif.Perm.initial 128 5 24, fun _ => 0, fun _ => 0, fun _ => .null, fun _ => none⟩
/-- A fresh internode: internode.rs:156-170. -/
def emptyArr : Arr (Option Nat) := ⟨0, fun _ => 0, fun _ => none⟩

/-- Allocate a leaf with the given flags: leaf24.rs:147-205 and `alloc_leaf`. Returns its number. -/
def allocLeaf (t : Tree V) (isRoot isLocked : Bool) (b : Leaf V) : Tree V × Nat :=
  let p := t.fresh
  ({ t with kind := upd t.kind p (some .leaf), rootf := upd t.rootf p isRoot, locked := upd t.locked p isLocked,
            parent := upd t.parent p none, next := upd t.next p none, prev := upd t.prev p none,
            body := upd t.body p b, fresh := p + 1 }, p)

/-- Allocate an internode: internode.rs:156-240 and `alloc_internode_erased`. -/
def allocInode (t : Tree V) (isRoot isLocked : Bool) (h : Nat) (a : Arr (Option Nat)) : Tree V × Nat :=
  let p := t.fresh
  ({ t with kind := upd t.kind p (some .inode), rootf := upd t.rootf p isRoot, locked := upd t.locked p isLocked,
            parent := upd t.parent p none, height := upd t.height p h, arr := upd t.arr p a, fresh := p + 1 }, p)

/-- `with_allocator`: generic.rs:132-146. One empty root leaf. -/
def empty : Tree V :=
  (allocLeaf { kind := fun _ => none, rootf := fun _ => false, locked := fun _ => false, parent := fun _ => none,
               next := fun _ => none, prev := fun _ => none, body := fun _ => emptyLeaf, height := fun _ => 0,
               arr := fun _ => emptyArr, fresh := 0, root := 0, count := 0 } true false emptyLeaf).1

/-- Dereference a pointer as a leaf. -/
def leafAt (t : Tree V) (p : Nat) : Except Err (Leaf V) :=
  match t.kind p with
  | some .leaf => .ok (t.body p)
  | _ => .error .badDeref

/-- `version().stable()` for a lone thread: nodeversion.rs `stable`. -/
def stable (t : Tree V) (p : Nat) : Except Err Unit := if t.locked p then .error .deadlock else .ok ()

/-- `version().lock()` for a lone thread: nodeversion.rs `lock`. -/
def lock (t : Tree V) (p : Nat) : Except Err (Tree V) :=
  if t.locked p then .error .deadlock else .ok { t with locked := upd t.locked p true }

/-- Dropping a lock guard of a node not marked as splitting. -/
def unlock (t : Tree V) (p : Nat) : Tree V := { t with locked := upd t.locked p false }

/-- Dropping a lock guard of a node marked as splitting, and `unlock_for_split`: both clear the root flag
(`SPLIT_UNLOCK_MASK`). -/
def unlockSplit (t : Tree V) (p : Nat) : Tree V :=
  { t with locked := upd t.locked p false, rootf := upd t.rootf p false }

/-- Height of the tree: the number of internode levels above the leaves, over all layers (internode.rs `height` starts at 0
just above the leaves).  Not part of the code; climbs and descents, which are unbounded loops there, get this much fuel. -/
def levels (t : Tree V) : Nat :=
  (List.range t.fresh).foldl (fun m x => max m (match t.kind x with
    | some .inode => t.height x + 1
    | _ => 0)) 0

/-- Fuel of a climb or a descent. -/
def walkFuel (t : Tree V) : Nat := levels t + 1

/-- Fuel of a walk along the leaf chain in a lookup. -/
def chainFuel : Nat := 2

/-- `maybe_parent_generic`: generic.rs:832-854. -/
def maybeParent (t : Tree V) : Nat → Nat → Except Err Nat
  | 0, _ => .error .fuel
  | f + 1, p =>
    match t.kind p with
    | none => .error .badDeref
    | some _ =>
      match t.parent p with
      | none => .ok p
      | some q => maybeParent t f q

/-- `reach_leaf_concurrent_generic`: generic.rs:866-926. -/
def reachLeaf (t : Tree V) (start ik : Nat) : Nat → Nat → Except Err Nat
  | 0, _ => .error .fuel
  | f + 1, p =>
    match t.kind p with
    | none => .error .badDeref
    | some .leaf => do
      stable t p
      .ok p
    | some .inode => do
      stable t p
      let a := t.arr p
      match a.child (KSearch.upperBoundDirect ik a.nkeys a.ikey) with
      | none => reachLeaf t start ik f start
      | some c => reachLeaf t start ik f c

/-- `ksuf`: leaf24.rs:364-378 (a suffix is only read when `keylenx` says there is one). -/
def Leaf.suf (b : Leaf V) (s : Nat) : Option Bytes := if b.klx s = ksufKeylenx then b.ksuf s else none

/-- `search_keylenx`: generic.rs:688-693, 1283-1288. -/
def searchKlx (k : Key) : Nat := if k.hasSuffix then ksufKeylenx else k.currentLen

/-- What one slot contributes to the search loop of `get`: generic.rs:706-740. -/
def slotMatches (b : Leaf V) (k : Key) (s : Nat) : Bool :=
  if b.ikey s ≠ k.ikey then false
  else match b.cell s with
    | .null => false
    | _ =>
      if b.klx s = searchKlx k then
        if b.klx s = ksufKeylenx then b.suf s == some k.suffix else true
      else decide (layerKeylenx ≤ b.klx s) && k.hasSuffix

/-- Search loop of `get`: generic.rs:704-741, from position `i`, `n` positions left. Returns the slot. -/
def searchGet (b : Leaf V) (k : Key) (i : Nat) : Nat → Option Nat
  | 0 => none
  | n + 1 =>
    let s := get 5 b.perm i
    if slotMatches b k s then some s else searchGet b k (i + 1) n

/-- `ikey_bound`: leaf24.rs:302. -/
def ikeyBound (t : Tree V) (p : Nat) : Except Err Nat := do
  let b ← leafAt t p
  .ok (b.ikey 0)

/-- Outcome of searching a leaf chain. -/
inductive GetRes (V : Type) where
  | absent
  | value (v : V)
  | descend (p : Nat)

/-- `'leaf_loop`/`'search_loop` of `get_concurrent_generic`: generic.rs:668-824. Fuel bounds the steps to the right. -/
def leafLoop (t : Tree V) (k : Key) : Nat → Nat → Except Err (GetRes V)
  | 0, _ => .error .fuel
  | f + 1, p => do
    let b ← leafAt t p
    stable t p
    match searchGet b k 0 (size 5 b.perm) with
    | some s =>
      if layerKeylenx ≤ b.klx s then
        match b.cell s with
        | .layer q => .ok (.descend q)
        | _ => .error .misread
      else
        match b.cell s with
        | .val v => .ok (.value v)
        | _ => .error .misread
    | none =>
      match t.next p with
      | none => .ok .absent
      | some q => do
        let nb ← ikeyBound t q
        if nb ≤ k.ikey then leafLoop t k f q else .ok .absent

/-- `'layer_loop` of `get_concurrent_generic`: generic.rs:660-826. Fuel bounds the number of layers. -/
def getLoop (t : Tree V) : Nat → Key → Nat → Except Err (Option V)
  | 0, _, _ => .error .fuel
  | f + 1, k, lr => do
    let r ← maybeParent t (walkFuel t) lr
    let p ← reachLeaf t r k.ikey (walkFuel t) r
    match ← leafLoop t k chainFuel p with
    | .absent => .ok none
    | .value v => .ok (some v)
    | .descend q => getLoop t f k.shift q

/-- `get` / `get_with_guard`: generic.rs:443-480. `Key::new` panics on over-long keys. -/
def get' (t : Tree V) (data : Bytes) : Except Err (Option V) :=
  match Key.new? data with
  | none => .error .panic
  | some k => getLoop t (data.length / 8 + 1) k t.root

/-- Result of `search_for_insert_generic`: generic.rs `InsertSearchResultGeneric`. -/
inductive Found where
  | found (slot : Nat)
  | notFound (pos : Nat)
  | layer (slot : Nat)
  | conflict (slot : Nat)
deriving DecidableEq, Repr

/-- `search_for_insert_generic`: generic.rs:1269-1356, from position `i`, `n` positions left. -/
def searchForInsert (b : Leaf V) (k : Key) (i : Nat) : Nat → Found
  | 0 => .notFound i
  | n + 1 =>
    let s := get 5 b.perm i
    let rest := searchForInsert b k (i + 1) n
    if b.ikey s = k.ikey then
      match b.cell s with
      | .null => rest
      | _ =>
        if layerKeylenx ≤ b.klx s then
          if k.hasSuffix then .layer s else rest
        else if b.klx s = searchKlx k then
          if b.klx s = ksufKeylenx then
            if b.suf s = some k.suffix then .found s else .conflict s
          else .found s
        else if b.klx s = ksufKeylenx ∧ k.hasSuffix then .conflict s
        else rest
    else if k.ikey < b.ikey s then .notFound i
    else rest

/-- `advance_to_key_by_bound_generic`: generic.rs:1435-1489. The counter is the number of hops left.
`true`: hop limit exceeded. -/
def advance (t : Tree V) (ik : Nat) : Nat → Nat → Except Err (Nat × Bool)
  | 0, p => .ok (p, true)
  | h + 1, p =>
    match t.next p with
    | none => .ok (p, false)
    | some q => do
      let nb ← ikeyBound t q
      if nb ≤ ik then advance t ik h q else .ok (p, false)

/-- `assign_slot_generic`: generic.rs:1883-1914. -/
def assignSlot (b : Leaf V) (s : Nat) (k : Key) (v : V) : Leaf V :=
  if k.hasSuffix then
    { b with ikey := upd b.ikey s k.ikey, cell := upd b.cell s (.val v), klx := upd b.klx s ksufKeylenx,
             ksuf := upd b.ksuf s (some k.suffix) }
  else
    { b with ikey := upd b.ikey s k.ikey, cell := upd b.cell s (.val v), klx := upd b.klx s k.currentLen }

/-- `assign_from_key_arc`: leaf24.rs:1623-1676. -/
def assignFromKey (b : Leaf V) (s : Nat) (k : Key) (v : V) : Leaf V :=
  if k.hasSuffix then
    { b with ikey := upd b.ikey s k.ikey, cell := upd b.cell s (.val v), klx := upd b.klx s ksufKeylenx,
             ksuf := upd b.ksuf s (some k.suffix) }
  else
    { b with ikey := upd b.ikey s k.ikey, cell := upd b.cell s (.val v), klx := upd b.klx s (min k.currentLen 8) }

/-- `can_reuse_slot0`: leaf24.rs:954. -/
def canReuseSlot0 (t : Tree V) (p ik : Nat) : Bool :=
  match t.prev p with
  | none => true
  | some _ => (t.body p).ikey 0 == ik

/-- Scan of the free region for a slot other than 0: generic.rs:1737-1743 (`n` offsets left, from `off`). -/
def findAlt (perm : BitVec 128) (off : Nat) : Nat → Option (Nat × Nat)
  | 0 => none
  | n + 1 =>
    let c := backAtOffset 5 24 perm off
    if c ≠ 0 then some (c, off) else findAlt perm (off + 1) n

/-- The adjustment loop of `calculate_split_point`: leaf24.rs:1205-1231. -/
def splitPosLoop (b : Leaf V) (sz insertIkey : Nat) : Nat → Nat → Nat
  | 0, pos => pos
  | f + 1, pos =>
    if 0 < pos ∧ pos < sz then
      let l := b.ikey (get 5 b.perm (pos - 1))
      let r := b.ikey (get 5 b.perm pos)
      if l = r then
        if insertIkey = l then splitPosLoop b sz insertIkey f (pos + 1)
        else if insertIkey < l then splitPosLoop b sz insertIkey f (pos - 1)
        else pos
      else pos
    else pos

/-- `calculate_split_point`: leaf24.rs:1185-1244 (only the position is used by the caller).
The loop runs at most `size` times because it moves in one direction. -/
def calcSplitPoint (b : Leaf V) (insertIkey : Nat) : Option Nat :=
  let sz := size 5 b.perm
  if sz = 0 then none
  else if sz / 2 = 0 then none
  else
    let pos := splitPosLoop b sz insertIkey sz (sz / 2)
    if pos = 0 ∨ sz ≤ pos then none else some pos

/-- One round of the move loop of `split_into_preallocated`: leaf24.rs:1300-1325. -/
def moveOne (oldPerm : BitVec 128) (pos i : Nat) (x : Leaf V × Leaf V) : Leaf V × Leaf V :=
  let old := x.1
  let new := x.2
  let os := get 5 oldPerm (pos + i)
  let kl := old.klx os
  let new := { new with ikey := upd new.ikey i (old.ikey os), klx := upd new.klx i kl,
                        cell := upd new.cell i (old.cell os) }
  let old' := { old with cell := upd old.cell os .null }
  if kl = ksufKeylenx then
    let new := match old.ksuf os with
      | some sfx => { new with ksuf := upd new.ksuf i (some sfx) }
      | none => new
    ({ old' with ksuf := upd old'.ksuf os none }, new)
  else (old', new)

/-- The move loop `for i in 0..n`. -/
def moveLoop (oldPerm : BitVec 128) (pos : Nat) (x : Leaf V × Leaf V) : Nat → Leaf V × Leaf V
  | 0 => x
  | n + 1 => moveOne oldPerm pos n (moveLoop oldPerm pos x n)

/-- `split_into_preallocated`: leaf24.rs:1246-1353. Returns left, right and the split key. -/
def splitLeaf (b : Leaf V) (pos : Nat) : Leaf V × Leaf V × Nat :=
  let oldSize := size 5 b.perm
  let n := oldSize - pos
  let x := moveLoop b.perm pos (b, emptyLeaf) n
  let newPerm := makeSorted24 n
  let right := { x.2 with perm := newPerm }
  let left := { x.1 with perm := setSize 5 b.perm pos }
  (left, right, right.ikey (get 5 newPerm 0))

/-- `link_sibling`: leaf24.rs:1432-1490. -/
def linkSibling (t : Tree V) (l r : Nat) : Except Err (Tree V) :=
  let oldNext := t.next l
  let t := { t with prev := upd t.prev r (some l), next := upd t.next r oldNext }
  match oldNext with
  | none => .ok { t with next := upd t.next l (some r) }
  | some q =>
    match t.kind q with
    | some .leaf => .ok { t with prev := upd t.prev q (some r), next := upd t.next l (some r) }
    | _ => .error .badDeref

/-- `get_parent`: propagation.rs:531-543; the flag says how the pointer is cast. -/
def getParent (t : Tree V) (p : Nat) (isLeaf : Bool) : Except Err (Option Nat) :=
  if t.kind p = some (if isLeaf then Kind.leaf else Kind.inode) then .ok (t.parent p) else .error .badDeref

/-- `set_parent`: propagation.rs:545-557. -/
def setParent (t : Tree V) (p : Nat) (q : Nat) (isLeaf : Bool) : Except Err (Tree V) :=
  if t.kind p = some (if isLeaf then Kind.leaf else Kind.inode) then
    .ok { t with parent := upd t.parent p (some q) }
  else .error .badDeref

/-- A node with one separator over two children: the body shared by root_creation.rs:88-97, 180-187, 262-270, 326-334. -/
def rootArr (l r s : Nat) : Arr (Option Nat) :=
  { nkeys := 1, ikey := upd emptyArr.ikey 0 s, child := upd (upd emptyArr.child 0 (some l)) 1 (some r) }

/-- `promote_layer_root_leaves` / `_internodes`: root_creation.rs:248-361. -/
def promoteLayerRoot (t : Tree V) (l r s : Nat) (isLeaf : Bool) : Except Err (Tree V) := do
  let h := if isLeaf then 0 else t.height l + 1
  let (t, n) := allocInode t true false h (rootArr l r s)
  let t ← setParent t l n isLeaf
  let t ← setParent t r n isLeaf
  .ok { t with rootf := upd (upd t.rootf l false) r false }

/-- `create_root_from_leaves` / `_internodes`: root_creation.rs:69-223. The compare-exchange failing is a panic. -/
def createMainRoot (t : Tree V) (l r s : Nat) (isLeaf : Bool) : Except Err (Tree V) := do
  let h := if isLeaf then 0 else t.height l + 1
  let (t, n) := allocInode t true false h (rootArr l r s)
  if t.root ≠ l then .error .panic
  else
    let t := { t with root := n }
    let t ← setParent t l n isLeaf
    let t ← setParent t r n isLeaf
    .ok { t with rootf := upd t.rootf l false }

/-- `validate_membership`: parent_locking.rs:22-46: first position `0..=nkeys` holding the child. -/
def findChild (a : Arr (Option Nat)) (c : Nat) (i : Nat) : Nat → Option Nat
  | 0 => none
  | n + 1 => if a.child i = some c then some i else findChild a c (i + 1) n

/-- `update_sibling_children_parents`: propagation.rs:587-615 (also the parent updates inside `split_into`,
internode.rs:634-679, which store the same pointer for internode children). -/
def setParents (t : Tree V) (a : Arr (Option Nat)) (sib : Nat) (isLeaf : Bool) : Nat → Except Err (Tree V)
  | 0 => .ok t
  | n + 1 => do
    let t ← setParents t a sib isLeaf n
    match a.child n with
    | none => .ok t
    | some c => setParent t c sib isLeaf

/-- `propagation_loop`: propagation.rs:175-524. The counter is the iterations left before the panic at 206-217.
The re-reads of the parent pointer (302-316) cannot differ for a lone thread; failing membership 17 times in a row
(322-358) is what happens when it fails once. -/
def propagate : Nat → Tree V → Nat → Nat → Nat → Bool → Bool → Bool → Except Err (Tree V)
  | 0, _, _, _, _, _, _, _ => .error .panic
  | f + 1, t, l, r, s, isMain, isLayer, atLeaf => do
    match ← getParent t l atLeaf with
    | none =>
      if isLayer then do
        let t ← promoteLayerRoot t l r s atLeaf
        .ok (unlockSplit (unlockSplit t r) l)
      else if isMain then do
        let t ← createMainRoot t l r s atLeaf
        .ok (unlockSplit (unlockSplit t r) l)
      else .error .panic
    | some p =>
      if t.kind p ≠ some .inode then .error .badDeref
      else do
        let t ← lock t p
        let a := t.arr p
        match findChild a l 0 (a.nkeys + 1) with
        | none => .error .splitFailed
        | some idx =>
          if a.nkeys < inodeWidth then do
            let t := { t with arr := upd t.arr p (insertKeyAndChild a idx s (some r)) }
            let t ← setParent t r p atLeaf
            .ok (unlockSplit (unlock (unlockSplit t r) p) l)
          else do
            let pMain := t.root == p
            let pLayer := !pMain && (t.parent p).isNone && t.rootf p
            let (t, sib) := allocInode t false true (t.height p) emptyArr
            let (la, ra, popup, wentLeft) := splitInto inodeWidth a emptyArr idx s (some r)
            let t := { t with arr := upd (upd t.arr p la) sib ra }
            let t ← setParents t ra sib (t.height p == 0) (ra.nkeys + 1)
            let t ← setParent t r (if wentLeft then p else sib) atLeaf
            let t := unlockSplit (unlockSplit t r) l
            propagate f t p sib popup pMain pLayer false

/-- `handle_leaf_split_generic`: generic.rs:1967-2104, with `make_split_leaf` (propagation.rs:105-166).
The leaf is locked by the caller. -/
def handleLeafSplit (t : Tree V) (l ik : Nat) : Except Err (Tree V) :=
  let b := t.body l
  match calcSplitPoint b ik with
  | none => .error .splitFailed
  | some pos =>
    let rootFlag := t.rootf l
    let isMain := rootFlag && t.root == l
    let isLayer := rootFlag && (t.parent l).isNone && !isMain
    let (lb, rb, s) := splitLeaf b pos
    let (t, r) := allocLeaf t false true rb
    let t := { t with body := upd t.body l lb }
    do
      let t ← linkSibling t l r
      propagate maxPropagation t l r s isMain isLayer true

/-- The twig loop of `create_layer_concurrent_generic`: generic.rs:2243-2279. `tail` is `twig_tail`, `head` `twig_head`.
Fuel: a round consumes eight bytes of both keys. -/
def twigLoop : Nat → Tree V → Option Nat → Nat → Key → Key → Ordering →
    Except Err (Tree V × Option Nat × Nat × Key × Key × Ordering)
  | 0, _, _, _, _, _, _ => .error .fuel
  | f + 1, t, head, tail, ek, nk, cmp =>
    if cmp = .eq ∧ ek.hasSuffix ∧ nk.hasSuffix then
      let b : Leaf V := { emptyLeaf with ikey := upd (fun _ => 0) 0 ek.ikey, perm := makeSorted24 1 }
      let (t, p) := allocLeaf t true false b
      let (t, head) := match head with
        | some h =>
          let tb := t.body tail
          ({ t with body := upd t.body tail { tb with klx := upd tb.klx 0 layerKeylenx,
                                                      cell := upd tb.cell 0 (.layer p) } }, some h)
        | none => (t, some p)
      let ek := ek.shift
      let nk := nk.shift
      twigLoop f t head p ek nk (ek.compare nk.ikey nk.currentLen)
    else .ok (t, head, tail, ek, nk, cmp)

/-- `assign_final_layer_entries`: generic.rs:2331-2387. -/
def finalLeaf (ek : Key) (ev : V) (nk : Key) (nv : V) (cmp : Ordering) : Leaf V :=
  let existingFirst := match cmp with
    | .lt => true
    | .gt => false
    | .eq => decide (ek.currentLen ≤ nk.currentLen)
  let b := if existingFirst then assignFromKey (assignFromKey emptyLeaf 0 ek ev) 1 nk nv
           else assignFromKey (assignFromKey emptyLeaf 0 nk nv) 1 ek ev
  { b with perm := makeSorted24 2 }

/-- `create_layer_concurrent_generic`: generic.rs:2187-2316. Returns the head of the chain.
`Key::from_suffix` panics on over-long input; a slot without a value panics in `assign_from_key_arc`. -/
def createLayer (t : Tree V) (b : Leaf V) (slot : Nat) (nk : Key) (v : V) : Except Err (Tree V × Nat) :=
  match Key.fromSuffix? ((b.suf slot).getD []) with
  | none => .error .panic
  | some ek =>
    match (if layerKeylenx ≤ b.klx slot then Cell.null else b.cell slot) with
    | .null => .error .panic
    | .layer _ => .error .misread
    | .val ev => do
      let nk := if nk.hasSuffix then nk.shift else nk
      let cmp := ek.compare nk.ikey nk.currentLen
      let (t, head, tail, ek, nk, cmp) ← twigLoop (nk.data.length + 1) t none 0 ek nk cmp
      let (t, p) := allocLeaf t true false (finalLeaf ek ev nk v cmp)
      match head with
      | none => .ok (t, p)
      | some h =>
        let tb := t.body tail
        .ok ({ t with body := upd t.body tail { tb with klx := upd tb.klx 0 layerKeylenx,
                                                        cell := upd tb.cell 0 (.layer p) } }, h)

/-- `insert_concurrent_generic`: generic.rs:1549-1874. Fuel bounds the iterations of the outer loop. -/
def insertLoop (v : V) : Nat → Tree V → Key → Nat → Except Err (Tree V × Option V)
  | 0, _, _, _ => .error .fuel
  | f + 1, t, k, lr => do
    let r ← maybeParent t (walkFuel t) lr
    let l0 ← reachLeaf t r k.ikey (walkFuel t) r
    let (l, exceeded) ← advance t k.ikey maxBlinkHops l0
    if exceeded then insertLoop v f t k t.root
    else do
      let b ← leafAt t l
      let t ← lock t l
      let moved ← match t.next l with
        | none => .ok false
        | some q => do
          let nb ← ikeyBound t q
          .ok (decide (nb ≤ k.ikey))
      if moved then insertLoop v f (unlock t l) k r
      else
        match searchForInsert b k 0 (size 5 b.perm) with
        | .found s =>
          match b.cell s with
          | .null => insertLoop v f (unlock t l) k r
          | .layer _ => .error .misread
          | .val old =>
            .ok (unlock { t with body := upd t.body l { b with cell := upd b.cell s (.val v) } } l, some old)
        | .notFound pos =>
          if leafWidth ≤ size 5 b.perm then do
            let t ← handleLeafSplit t l k.ikey
            insertLoop v f t k r
          else
            let s := back 5 24 b.perm
            if s = 0 ∧ canReuseSlot0 t l k.ikey = false then
              match findAlt b.perm 1 (leafWidth - size 5 b.perm - 1) with
              | some (alt, off) =>
                let nb := { assignSlot b alt k v with
                  perm := (insertFromBack 5 24 (swapFreeSlots 5 b.perm 23 (23 - off)) pos).1 }
                .ok ({ unlock { t with body := upd t.body l nb } l with count := t.count + 1 }, none)
              | none => do
                let t ← handleLeafSplit t l k.ikey
                insertLoop v f t k r
            else
              let nb := { assignSlot b s k v with perm := (insertFromBack 5 24 b.perm pos).1 }
              .ok ({ unlock { t with body := upd t.body l nb } l with count := t.count + 1 }, none)
        | .layer s =>
          match b.cell s with
          | .layer q => insertLoop v f (unlock t l) k.shift q
          | _ => .error .misread
        | .conflict s => do
          let (t, p) ← createLayer t b s k v
          let nb := { b with ksuf := upd b.ksuf s none, klx := upd b.klx s layerKeylenx,
                             cell := upd b.cell s (.layer p) }
          .ok ({ unlock { t with body := upd t.body l nb } l with count := t.count + 1 }, none)

/-- `insert` / `insert_with_guard`: generic.rs:1509-1545. -/
def insert (t : Tree V) (data : Bytes) (v : V) : Except Err (Tree V × Option V) :=
  match Key.new? data with
  | none => .error .panic
  | some k => insertLoop v (2 * (data.length / 8) + 3) t k t.root

/-- `len`: generic.rs:163-165. -/
def len (t : Tree V) : Nat := t.count

/-- `is_empty`: generic.rs:170-179. -/
def isEmpty (t : Tree V) : Except Err Bool :=
  match t.kind t.root with
  | none => .error .badDeref
  | some .inode => .ok false
  | some .leaf => .ok (size 5 (t.body t.root).perm == 0)

end Verif.Tree
