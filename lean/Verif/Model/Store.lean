import Verif.Model.Tree
import Verif.Spec.Program
/-!
# Values behind the tree: storage modes, retirement, guards, the public API

The tree of `Model/Tree.lean` with `V := Nat` holds pointers to heap cells.  This file models what those cells are
(`Arc<V>` of `MassTree`, `Box<V>` of `MassTree24Inline`; `/repo/src/slot.rs`), who owns them, when they are released
(`defer_retire`, `Drop` of leaves and tree), and the public calls `guard`, `insert`, `get`, `get_ref`, `len`, `is_empty`
and `drop`, as made by one thread holding any number of guards and handles.

Simplifications:

* cells are numbered in the order of allocation and a number is never reused, so a use after free is visible as an
  operation on a cell whose owner count is 0.
* `seize` is represented by its contract: a retired cell is released at some moment when every guard that was active at
  its retirement has been dropped (operation `reclaim`), or when the tree is dropped.
* suffix buffers and nodes are not in this heap; nodes are modelled in `Model/Alloc.lean`.
-/
namespace Verif.Store
open Verif.Spec (Bytes Op Ans Call Reply)
open Verif.Internode (upd)
open Verif.Perm (size get back insertFromBack swapFreeSlots)
open Verif.Tree (Tree Leaf Cell Err)

variable {V O : Type}

/-- Heap cells: contents, number of owners (`Arc` strong count; 1 for a `Box`), number of times the contents were dropped. -/
structure Heap (V : Type) where
  val : Nat → V
  rc : Nat → Nat
  drops : Nat → Nat
  fresh : Nat

/-- The heap before the first allocation (`default` is never read). -/
def Heap.empty [Inhabited V] : Heap V := ⟨fun _ => default, fun _ => 0, fun _ => 0, 0⟩

/-- `Arc::new`, `Box::new`: a new cell with one owner. -/
def Heap.alloc (h : Heap V) (v : V) : Heap V × Nat :=
  ({ h with val := upd h.val h.fresh v, rc := upd h.rc h.fresh 1, fresh := h.fresh + 1 }, h.fresh)

/-- `Arc::clone`, `Arc::increment_strong_count`. -/
def Heap.incr (h : Heap V) (a : Nat) : Except Err (Heap V) :=
  if h.rc a = 0 then .error .badDeref else .ok { h with rc := upd h.rc a (h.rc a + 1) }

/-- Drop of an `Arc` or a `Box`; the contents are dropped with the last owner. -/
def Heap.decr (h : Heap V) (a : Nat) : Except Err (Heap V) :=
  if h.rc a = 0 then .error .badDeref
  else .ok { h with rc := upd h.rc a (h.rc a - 1),
                    drops := if h.rc a = 1 then upd h.drops a (h.drops a + 1) else h.drops }

/-- Dereference. -/
def Heap.read (h : Heap V) (a : Nat) : Except Err V := if h.rc a = 0 then .error .badDeref else .ok (h.val a)

/-- The operations of `ValueSlot` used by the tree: slot.rs:60-201, `try_clone_output` and `assign_from_key_arc` of
`LayerCapableLeaf` (leaf24.rs:1590-1765).  `O` is `Output`. -/
structure SlotOps (V O : Type) where
  /-- `into_output` -/
  intoOutput : Heap V → V → Heap V × O
  /-- `output_to_raw` -/
  toRaw : Heap V → O → Except Err (Heap V × Nat)
  /-- `output_consume_to_raw`, and the store in `assign_from_key_arc` -/
  consume : Heap V → O → Except Err (Heap V × Nat)
  /-- `output_from_raw`, `try_clone_output` -/
  fromRaw : Heap V → Nat → Except Err (Heap V × O)
  /-- `Clone` of the output -/
  clone : Heap V → O → Except Err (Heap V × O)
  /-- `Drop` of the output -/
  dropOut : Heap V → O → Except Err (Heap V)
  /-- `cleanup_value_ptr` -/
  cleanup : Heap V → Nat → Except Err (Heap V)
  /-- the value the holder of an output sees -/
  deref : Heap V → O → Except Err V

/-- `impl ValueSlot for LeafValue<V>`: slot.rs:207-306, leaf24.rs:1590-1676. Outputs are `Arc`s. -/
def arcOps (V : Type) : SlotOps V Nat where
  intoOutput h v := h.alloc v
  toRaw h o := do .ok (← h.incr o, o)
  consume h o := .ok (h, o)
  fromRaw h p := do .ok (← h.incr p, p)
  clone h o := do .ok (← h.incr o, o)
  dropOut h o := h.decr o
  cleanup h p := h.decr p
  deref h o := h.read o

/-- `impl ValueSlot for LeafValueIndex<V>`: slot.rs:320-418, leaf24.rs:1682-1765. Outputs are plain copies, every slot owns
a `Box`. -/
def boxOps (V : Type) : SlotOps V V where
  intoOutput h v := (h, v)
  toRaw h o := .ok (h.alloc o)
  consume h o := .ok (h.alloc o)
  fromRaw h p := do .ok (h, ← h.read p)
  clone h o := .ok (h, o)
  dropOut h _ := .ok h
  cleanup h p := h.decr p
  deref _ o := .ok o

/-- `create_layer_concurrent_generic`: generic.rs:2187-2316, with the ownership of both values. The existing value is
stored before the new one (in the code the order follows the key order; it only changes the numbering of new boxes). -/
def createLayer (S : SlotOps V O) (h : Heap V) (t : Tree Nat) (b : Leaf Nat) (slot : Nat) (nk : Key) (o : O) :
    Except Err (Heap V × Tree Nat × Nat) :=
  match Key.fromSuffix? ((b.suf slot).getD []) with
  | none => .error .panic
  | some ek =>
    match (if Tree.layerKeylenx ≤ b.klx slot then Cell.null else b.cell slot) with
    | .null => .error .panic
    | .layer _ => .error .misread
    | .val q => do
      let (h, eo) ← S.fromRaw h q
      let nk := if nk.hasSuffix then nk.shift else nk
      let cmp := ek.compare nk.ikey nk.currentLen
      let (t, head, tail, ek, nk, cmp) ← Tree.twigLoop (nk.data.length + 1) t none 0 ek nk cmp
      let (h, ep) ← S.consume h eo
      let (h, np) ← S.consume h o
      let (t, p) := Tree.allocLeaf t true false (Tree.finalLeaf ek ep nk np cmp)
      match head with
      | none => .ok (h, t, p)
      | some hd =>
        let tb := t.body tail
        .ok (h, { t with body := upd t.body tail { tb with klx := upd tb.klx 0 Tree.layerKeylenx,
                                                           cell := upd tb.cell 0 (.layer p) } }, hd)

/-- `insert_concurrent_generic`: generic.rs:1549-1874, with ownership.  `o` is the local variable `value`; it is dropped on
return unless it was moved into the slot.  The result carries the pointers handed to `defer_retire` and the returned
output. -/
def insertLoop (S : SlotOps V O) (o : O) : Nat → Heap V → Tree Nat → Key → Nat →
    Except Err (Heap V × Tree Nat × List Nat × Option O)
  | 0, _, _, _, _ => .error .fuel
  | f + 1, h, t, k, lr => do
    let r ← Tree.maybeParent t (Tree.walkFuel t) lr
    let l0 ← Tree.reachLeaf t r k.ikey (Tree.walkFuel t) r
    let (l, exceeded) ← Tree.advance t k.ikey Tree.maxBlinkHops l0
    if exceeded then insertLoop S o f h t k t.root
    else do
      let b ← Tree.leafAt t l
      let t ← Tree.lock t l
      let moved ← match t.next l with
        | none => .ok false
        | some q => do
          let nb ← Tree.ikeyBound t q
          .ok (decide (nb ≤ k.ikey))
      if moved then insertLoop S o f h (Tree.unlock t l) k r
      else
        match Tree.searchForInsert b k 0 (size 5 b.perm) with
        | .found s =>
          match b.cell s with
          | .null => insertLoop S o f h (Tree.unlock t l) k r
          | .layer _ => .error .misread
          | .val old => do
            let (h, oldOut) ← S.fromRaw h old
            let (h, p) ← S.consume h o
            .ok (h, Tree.unlock { t with body := upd t.body l { b with cell := upd b.cell s (.val p) } } l, [old],
              some oldOut)
        | .notFound pos =>
          if Tree.leafWidth ≤ size 5 b.perm then do
            let t ← Tree.handleLeafSplit t l k.ikey
            insertLoop S o f h t k r
          else
            let s := back 5 24 b.perm
            if s = 0 ∧ Tree.canReuseSlot0 t l k.ikey = false then
              match Tree.findAlt b.perm 1 (Tree.leafWidth - size 5 b.perm - 1) with
              | some (alt, off) => do
                let (h, p) ← S.toRaw h o
                let nb := { Tree.assignSlot b alt k p with
                  perm := (insertFromBack 5 24 (swapFreeSlots 5 b.perm 23 (23 - off)) pos).1 }
                let h ← S.dropOut h o
                .ok (h, { Tree.unlock { t with body := upd t.body l nb } l with count := t.count + 1 }, [], none)
              | none => do
                let t ← Tree.handleLeafSplit t l k.ikey
                insertLoop S o f h t k r
            else do
              let (h, p) ← S.toRaw h o
              let nb := { Tree.assignSlot b s k p with perm := (insertFromBack 5 24 b.perm pos).1 }
              let h ← S.dropOut h o
              .ok (h, { Tree.unlock { t with body := upd t.body l nb } l with count := t.count + 1 }, [], none)
        | .layer s =>
          match b.cell s with
          | .layer q => insertLoop S o f h (Tree.unlock t l) k.shift q
          | _ => .error .misread
        | .conflict s => do
          let (h, o') ← S.clone h o
          let (h, t, p) ← createLayer S h t b s k o'
          let retired ← match b.cell s with
            | .null => .ok []
            | .layer _ => .error .misread
            | .val q => .ok [q]
          let nb := { b with ksuf := upd b.ksuf s none, klx := upd b.klx s Tree.layerKeylenx,
                             cell := upd b.cell s (.layer p) }
          let h ← S.dropOut h o
          .ok (h, { Tree.unlock { t with body := upd t.body l nb } l with count := t.count + 1 }, retired, none)

/-- `insert` / `insert_with_guard`: generic.rs:1509-1545. -/
def insertRaw (S : SlotOps V O) (h : Heap V) (t : Tree Nat) (data : Bytes) (v : V) :
    Except Err (Heap V × Tree Nat × List Nat × Option O) :=
  match Key.new? data with
  | none => .error .panic
  | some k =>
    let (h, o) := S.intoOutput h v
    insertLoop S o (2 * (data.length / 8) + 3) h t k t.root

/-- `get` / `get_with_guard`: generic.rs:443-480; the search is `Tree.get'`, the last step `output_from_raw`
(generic.rs:772-775). -/
def getRaw (S : SlotOps V O) (h : Heap V) (t : Tree Nat) (data : Bytes) : Except Err (Heap V × Option O) := do
  match ← Tree.get' t data with
  | none => .ok (h, none)
  | some p =>
    let (h, o) ← S.fromRaw h p
    .ok (h, some o)

/-- `'leaf_loop`/`'search_loop` of `get_ref_generic`: generic.rs:523-634.  A separate copy of the loop of
`get_concurrent_generic`; its per-slot test (generic.rs:555-588) is the same expression. -/
def refLeafLoop (t : Tree Nat) (k : Key) : Nat → Nat → Except Err (Tree.GetRes Nat)
  | 0, _ => .error .fuel
  | f + 1, p => do
    let b ← Tree.leafAt t p
    Tree.stable t p
    match Tree.searchGet b k 0 (size 5 b.perm) with
    | some s =>
      if Tree.layerKeylenx ≤ b.klx s then
        match b.cell s with
        | .layer q => .ok (.descend q)
        | _ => .error .misread
      else
        match b.cell s with
        | .val v => .ok (.value v)
        | _ => .error .misread
    | none =>
      match t.next p with
      | none => .ok .absent
      | some q => do
        let nb ← Tree.ikeyBound t q
        if nb ≤ k.ikey then refLeafLoop t k f q else .ok .absent

/-- `'layer_loop` of `get_ref_generic`: generic.rs:514-636. Returns the pointer that is turned into a reference. -/
def refLoop (t : Tree Nat) : Nat → Key → Nat → Except Err (Option Nat)
  | 0, _, _ => .error .fuel
  | f + 1, k, lr => do
    let r ← Tree.maybeParent t (Tree.walkFuel t) lr
    let p ← Tree.reachLeaf t r k.ikey (Tree.walkFuel t) r
    match ← refLeafLoop t k Tree.chainFuel p with
    | .absent => .ok none
    | .value v => .ok (some v)
    | .descend q => refLoop t f k.shift q

/-- `get_ref`: generic.rs:489-492. The pointer behind the returned reference. -/
def getRefRaw (t : Tree Nat) (data : Bytes) : Except Err (Option Nat) :=
  match Key.new? data with
  | none => .error .panic
  | some k => refLoop t (data.length / 8 + 1) k t.root

/-- What a program holds: the tree object, active guards, outputs returned to it, references obtained under a guard, and the
collector's list of retired pointers, each with the guards that were active when it was retired. -/
structure St (V O : Type) where
  heap : Heap V
  tree : Tree Nat
  guards : List Nat
  nextGuard : Nat
  outs : List O
  refs : List (Nat × Nat)
  retired : List (Nat × List Nat)

/-- `MassTreeGeneric::new`: generic.rs:110-146. -/
def new [Inhabited V] : St V O := ⟨Heap.empty, Tree.empty, [], 0, [], [], []⟩

/-- One operation.  Guards: `tree.guard()` (generic.rs:154-156) and its drop.  A reference ends with its guard because it has
the guard's lifetime (`get_ref<'g>`, generic.rs:489). `reclaim` is the collector. -/
def step (S : SlotOps V O) (s : St V O) : Op V → Except Err (St V O × Ans V)
  | .enter => .ok ({ s with guards := s.nextGuard :: s.guards, nextGuard := s.nextGuard + 1 }, .unit)
  | .leave g =>
    if g ∈ s.guards then
      .ok ({ s with guards := s.guards.filter (· ≠ g), refs := s.refs.filter (·.1 ≠ g) }, .unit)
    else .ok (s, .skip)
  | .insert k v => do
    let (h, t, rs, r) ← insertRaw S s.heap s.tree k v
    let s := { s with heap := h, tree := t, retired := rs.map (·, s.guards) ++ s.retired }
    match r with
    | none => .ok (s, .val none)
    | some o => do
      let v ← S.deref h o
      .ok ({ s with outs := o :: s.outs }, .val (some v))
  | .get k => do
    let (h, r) ← getRaw S s.heap s.tree k
    let s := { s with heap := h }
    match r with
    | none => .ok (s, .val none)
    | some o => do
      let v ← S.deref h o
      .ok ({ s with outs := o :: s.outs }, .val (some v))
  | .getRef g k =>
    if g ∈ s.guards then do
      match ← getRefRaw s.tree k with
      | none => .ok (s, .val none)
      | some p => do
        let v ← s.heap.read p
        .ok ({ s with refs := (g, p) :: s.refs }, .val (some v))
    else .ok (s, .skip)
  | .useRef i =>
    match s.refs[i]? with
    | none => .ok (s, .skip)
    | some (_, p) => do
      let v ← s.heap.read p
      .ok (s, .val (some v))
  | .useOut i =>
    match s.outs[i]? with
    | none => .ok (s, .skip)
    | some o => do
      let v ← S.deref s.heap o
      .ok (s, .val (some v))
  | .dropOut i =>
    match s.outs[i]? with
    | none => .ok (s, .skip)
    | some o => do
      let h ← S.dropOut s.heap o
      .ok ({ s with heap := h, outs := s.outs.eraseIdx i }, .unit)
  | .reclaim i =>
    match s.retired[i]? with
    | none => .ok (s, .unit)
    | some (p, gs) =>
      if ∃ g, g ∈ gs ∧ g ∈ s.guards then .ok (s, .unit)
      else do
        let h ← S.cleanup s.heap p
        .ok ({ s with heap := h, retired := s.retired.eraseIdx i }, .unit)
  | .len => .ok (s, .num (Tree.len s.tree))
  | .isEmpty => do
    let b ← Tree.isEmpty s.tree
    .ok (s, .bool b)

/-- A program: operations in order. -/
def run (S : SlotOps V O) (s : St V O) : List (Op V) → Except Err (St V O × List (Ans V))
  | [] => .ok (s, [])
  | op :: ops => do
    let (s, a) ← step S s op
    let (s, as) ← run S s ops
    .ok (s, a :: as)

/-- Release a list of pointers, one after the other. -/
def cleanupAll (S : SlotOps V O) (h : Heap V) : List Nat → Except Err (Heap V)
  | [] => .ok h
  | p :: ps => do
    let h ← S.cleanup h p
    cleanupAll S h ps

/-- The pointers `Drop for LeafNode24` releases: all slots, non-null, `keylenx < LAYER_KEYLENX`: leaf24.rs:1558-1577.
A layer pointer would be released as if it were a value if its `keylenx` were not set. -/
def leafDrops (b : Leaf Nat) : List Nat :=
  (List.range 24).filterMap fun s =>
    match b.cell s with
    | .null => none
    | .val p => if b.klx s < Tree.layerKeylenx then some p else none
    | .layer q => if b.klx s < Tree.layerKeylenx then some q else none

/-- The pointers released by `teardown_tree24`, which drops every tracked leaf: alloc24.rs:217-237. -/
def treeDrops (t : Tree Nat) : List Nat :=
  (List.range t.fresh).flatMap fun p => if t.kind p = some .leaf then leafDrops (t.body p) else []

/-- `Drop for MassTreeGeneric`: tree.rs:227-249. `reclaim_all`, then teardown.  Only possible without active guards (they
borrow the tree). -/
def dropTree (S : SlotOps V O) (s : St V O) : Except Err (Heap V) := do
  let h ← cleanupAll S s.heap (s.retired.map (·.1))
  cleanupAll S h (treeDrops s.tree)

/-- Drop all outputs the program still holds (they outlive the tree). -/
def dropOuts (S : SlotOps V O) (h : Heap V) : List O → Except Err (Heap V)
  | [] => .ok h
  | o :: os => do
    let h ← S.dropOut h o
    dropOuts S h os

/-- `MassTreeIndex::get`: index.rs:73-75. The `Arc` is dereferenced and dropped. -/
def indexGet (h : Heap V) (t : Tree Nat) (k : Bytes) : Except Err (Heap V × Option V) := do
  match ← getRaw (arcOps V) h t k with
  | (h, none) => .ok (h, none)
  | (h, some o) => do
    let v ← (arcOps V).deref h o
    let h ← (arcOps V).dropOut h o
    .ok (h, some v)

/-- `MassTreeIndex::insert`: index.rs:84-90. -/
def indexInsert (h : Heap V) (t : Tree Nat) (k : Bytes) (v : V) :
    Except Err (Heap V × Tree Nat × List Nat × Option V) := do
  match ← insertRaw (arcOps V) h t k v with
  | (h, t, rs, none) => .ok (h, t, rs, none)
  | (h, t, rs, some o) => do
    let v ← (arcOps V).deref h o
    let h ← (arcOps V).dropOut h o
    .ok (h, t, rs, some v)

/-- The collector tries the retired pointers at the given positions (the index offers no guards, so nothing holds them back). -/
def reclaims (s : St V Nat) : List Nat → Except Err (St V Nat)
  | [] => .ok s
  | i :: is => do
    let (s, _) ← step (arcOps V) s (.reclaim i)
    reclaims s is

/-- One call on a `MassTreeIndex`: index.rs:58-90. -/
def indexCall (s : St V Nat) : Call V → Except Err (St V Nat × Reply V)
  | .insert k v => do
    let (h, t, rs, r) ← indexInsert s.heap s.tree k v
    .ok ({ s with heap := h, tree := t, retired := rs.map (·, s.guards) ++ s.retired }, .value r)
  | .get k => do
    let (h, r) ← indexGet s.heap s.tree k
    .ok ({ s with heap := h }, .value r)
  | .len => .ok (s, .count (Tree.len s.tree))
  | .isEmpty => do
    let b ← Tree.isEmpty s.tree
    .ok (s, .flag b)

/-- A sequence of calls on a `MassTreeIndex`, with collector activity before each. -/
def indexRun (s : St V Nat) : List (List Nat × Call V) → Except Err (St V Nat × List (Reply V))
  | [] => .ok (s, [])
  | (is, c) :: cs => do
    let s ← reclaims s is
    let (s, r) ← indexCall s c
    let (s, rs) ← indexRun s cs
    .ok (s, r :: rs)

end Verif.Store
