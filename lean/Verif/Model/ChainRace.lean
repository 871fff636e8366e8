import Verif.Model.LeafRace
import Verif.Model.CasRace
/-!
# Lookups, inserts and splits on a chain of leaves

Interleaving machine for the leaves of one layer, linked left to right.  Any number of threads look keys up
(`get_concurrent_generic` inside one layer, generic.rs:661-828, with `advance_to_key_generic`, generic.rs:1363-1416),
starting at any leaf that the routing of the layer could once have returned, while the holders of the leaves' locks
insert (generic.rs:1667-1783), turn values into sublayers (generic.rs:1804-1858) and split (`handle_leaf_split`, generic.rs:1966-2070, `split_into_preallocated`,
leaf24.rs:1246-1340, `link_sibling`, leaf24.rs:1432-1490).  Every load and store of a shared field that can matter to a
reader is one step.

Simplifications:

* memory is sequentially consistent;
* leaves are numbered, 0 is the null pointer, and the mark on a next pointer is a separate bit (its encoding in the
  pointer is the subject of C38);
* `ikey_bound()` of a leaf is a field that never changes: it reads slot 0, which keeps its slice in every leaf that
  another leaf points to (leaf24.rs:932-960; C27 for the sequential tree, C62 for calls of many threads);
* keys with equal slices and different lengths may be stored side by side, but no leaf is split between two equal slices
  (finding 1 in DESIGN.md);
* a sublayer is a number, the pointer to its root.  The sublayer itself is another such machine;
* the lock holder may write any contents into an unpublished slot, in any order: more than the code does;
* no leaf is ever marked deleted (nothing in the crate calls `mark_deleted` on a leaf), so `is_deleted` is left out;
* the parent is not represented.  The new leaf may be unlocked at any time after it was linked.
-/
namespace Verif.Chain
open Verif.Internode (upd)
open Verif.Perm (size get makeSorted24 setSize)
open Verif.Tree (Leaf Cell)
open Verif.Race (RPc Out rstep)
variable {V : Type}

/-- A leaf: contents, version word, next pointer with its mark, and `ikey_bound()`. -/
structure LeafSt (V : Type) where
  b : Leaf V
  word : NV.W
  nx : Nat
  mark : Bool
  lo : Nat

/-- Program counter of the holder of a leaf's lock; `lv` is the guard's `locked_value`, `y` the new leaf. -/
inductive HPc where
  | free
  /-- has locked; may write unpublished slots, publish them, replace values, unlock or begin to split -/
  | locked (lv : NV.W)
  /-- has set the split mark: generic.rs:1986 -/
  | marked (lv : NV.W)
  /-- the permutation is frozen; about to take the entry at position `j`: leaf24.rs:1284-1310 -/
  | take (lv : NV.W) (raw : BitVec 128) (sp y j : Nat)
  /-- about to clear the suffix of the slot at position `j`: leaf24.rs:1313-1321 -/
  | clear (lv : NV.W) (raw : BitVec 128) (sp y j : Nat)
  /-- about to store the truncated permutation: leaf24.rs:1324-1333 -/
  | unfreeze (lv : NV.W) (raw : BitVec 128) (sp y : Nat)
  /-- about to mark the next pointer, `lock_next`: leaf24.rs:849-890, 1451 -/
  | mark (lv : NV.W) (y : Nat)
  /-- about to store the new leaf's next pointer: leaf24.rs:1470-1474 -/
  | setNext (lv : NV.W) (y : Nat)
  /-- about to publish the new leaf by storing the unmarked next pointer: leaf24.rs:1484-1488 -/
  | publish (lv : NV.W) (y : Nat)
  /-- about to drop the guard: generic.rs:2060-2069 -/
  | unlock (lv : NV.W)
  /-- a new leaf, locked since it was made (`new_for_split`, leaf24.rs:1269-1276) -/
  | newborn
  /-- has made the first `st` stores that turn the value in slot `t` into a pointer to the sublayer `q`:
  generic.rs:1804-1858 -/
  | conv (lv : NV.W) (t q st : Nat)
deriving DecidableEq

/-- Program counter of a lookup. -/
inductive CPc (V : Type) where
  | idle
  /-- in leaf `x`, at this point of the search -/
  | leaf (x : Nat) (c : RPc V)
  /-- in `advance_to_key_generic` after `has_changed(v)`, about to call `stable`: generic.rs:1373 -/
  | adv1 (x : Nat) (k : Key) (v : NV.W)
  /-- about to load the version for `has_split`: 1376 -/
  | adv2 (x : Nat) (k : Key) (v ver : NV.W)
  /-- about to load the version for `is_splitting`: 1378 -/
  | adv3 (x : Nat) (k : Key) (ver : NV.W)
  /-- about to call `stable` again on leaf `x`, having started from `x0`: 1384, 1406 -/
  | adv4 (x0 x : Nat) (k : Key)
  /-- about to load the next pointer: 1387 -/
  | adv5 (x0 x : Nat) (k : Key) (ver : NV.W)
  /-- about to load the bound of the next leaf `z`: 1402 -/
  | adv6 (x0 x : Nat) (k : Key) (ver : NV.W) (z : Nat)
  /-- nothing found and not dirty, about to load the next pointer: 792 -/
  | next (x : Nat) (k : Key)
  /-- about to load the bound of the next leaf: 796 -/
  | bound (x : Nat) (k : Key) (z : Nat)
  /-- finished; `saw` (not part of the code) says that the last load of a next pointer found it marked -/
  | done (k : Key) (r : Out V) (saw : Bool)
deriving DecidableEq

/-- All leaves of the layer.  `live x` says that the leaf has been linked into the chain, `used x` that its memory has
been allocated; neither is part of the code. -/
structure St (V : Type) where
  leaf : Nat → LeafSt V
  hold : Nat → HPc
  live : Nat → Bool
  used : Nat → Bool
  rd : Nat → CPc V

/-- `advance_to_key_generic` returns leaf `x` and `ver` to a search that was in `x0`: generic.rs:752-763. -/
def advRet (x0 x : Nat) (k : Key) (ver : NV.W) : CPc V :=
  if x = x0 then .leaf x0 (.perm k ver) else .leaf x (.stable k)

/-- The next step of a lookup.  `fixed` is not the code: it is the variant in which a lookup that finds nothing and sees
a marked next pointer searches again, as `advance_to_key_generic` does, instead of returning `None`. -/
def cstep (fixed : Bool) (leaf : Nat → LeafSt V) : CPc V → CPc V
  | .idle => .idle
  | .done k r w => .done k r w
  | .leaf x c =>
    match c with
    | .idle => .idle
    | .done k r => .done k r false
    -- `permutation_try`: generic.rs:685-688
    | .perm k v => if Freeze.isFrozen (leaf x).b.perm then .leaf x (.stable k) else .leaf x (rstep (leaf x).b (leaf x).word (.perm k v))
    -- generic.rs:748-785
    | .check k v snap =>
      if NV.hasChanged v (leaf x).word then .adv1 x k v
      else .leaf x (rstep (leaf x).b (leaf x).word (.check k v snap))
    -- generic.rs:787-790
    | .dirty k => if NV.isDirty (leaf x).word then .leaf x (.stable k) else .next x k
    | c => .leaf x (rstep (leaf x).b (leaf x).word c)
  | .adv1 x k v => if NV.isDirty (leaf x).word then .adv1 x k v else .adv2 x k v (leaf x).word
  | .adv2 x k v ver => if NV.hasSplit v (leaf x).word then .adv4 x x k else .adv3 x k ver
  | .adv3 x k ver => if NV.isSplitting (leaf x).word then .adv4 x x k else advRet x x k ver
  | .adv4 x0 x k => if NV.isDirty (leaf x).word then .adv4 x0 x k else .adv5 x0 x k (leaf x).word
  | .adv5 x0 x k ver =>
    if (leaf x).mark then .adv5 x0 x k ver
    else if (leaf x).nx = 0 then advRet x0 x k ver
    else .adv6 x0 x k ver (leaf x).nx
  | .adv6 x0 x k ver z => if (leaf z).lo ≤ k.ikey then .adv4 x0 z k else advRet x0 x k ver
  | .next x k =>
    if (leaf x).mark then (if fixed then .leaf x (.stable k) else .done k .absent true)
    else if (leaf x).nx = 0 then .done k .absent false
    else .bound x k (leaf x).nx
  | .bound _ k z => if (leaf z).lo ≤ k.ikey then .leaf z (.stable k) else .done k .absent false

/-- Writing the four fields of a slot. -/
def setSlot (b : Leaf V) (s ik kl : Nat) (c : Cell V) (sf : Option Spec.Bytes) : Leaf V :=
  { b with ikey := upd b.ikey s ik, klx := upd b.klx s kl, cell := upd b.cell s c, ksuf := upd b.ksuf s sf }

/-- Slot `s` is not published. -/
def freeSlot (p : BitVec 128) (s : Nat) : Bool := decide (∀ j, j < size 5 p → get 5 p j ≠ s)

/-- A pointer to a value. -/
def isVal : Cell V → Bool
  | .val _ => true
  | _ => false

/-- Length class of a slot: 0 to 8 bytes, or more, with a suffix or a sublayer. -/
def cls (n : Nat) : Nat := if 64 ≤ n then 64 else n

/-- Publishing slot `s` at position `pos` keeps the leaf's slices in order and inside the leaf's range, and no published
slot has the same slice and the same length class.  The insert path ensures this: the search
returned "not found" and `pos` (generic.rs:1670-1720), the range was checked after locking (generic.rs:1634-1660), and
`assign_slot_generic` has stored a value, a length and the suffix if there is one (generic.rs:1883-1914). -/
def fits (l : LeafSt V) (hi : Nat) (pos s : Nat) : Bool :=
  decide ((∀ j, j < pos → l.b.ikey (get 5 l.b.perm j) ≤ l.b.ikey s) ∧
    (∀ j, j < size 5 l.b.perm → pos ≤ j → l.b.ikey s ≤ l.b.ikey (get 5 l.b.perm j)) ∧
    (∀ j, j < size 5 l.b.perm → ¬ (l.b.ikey (get 5 l.b.perm j) = l.b.ikey s ∧ cls (l.b.klx (get 5 l.b.perm j)) = cls (l.b.klx s))) ∧
    l.lo ≤ l.b.ikey s ∧ (l.nx ≠ 0 → l.b.ikey s < hi) ∧
    isVal (l.b.cell s) = true ∧ (l.b.klx s ≤ 8 ∨ l.b.klx s = 64 ∧ (l.b.ksuf s).isSome = true))

/-- What can happen next. -/
inductive Act (V : Type) where
  /-- somebody acquires the lock of leaf `x`: nodeversion.rs:610-650 -/
  | lock (x : Nat)
  /-- the holder writes into unpublished slot `s`, `assign_slot_generic`: generic.rs:1883-1914 -/
  | write (x s ik kl : Nat) (c : Cell V) (sf : Option Spec.Bytes)
  /-- the holder publishes the slot at offset `off` from the back at position `pos`: generic.rs:1747-1783 -/
  | publish (x pos off : Nat)
  /-- the holder replaces the value in slot `s`: generic.rs:1684-1712 -/
  | update (x s : Nat) (v : V)
  /-- the holder begins to turn the value in slot `t` into the sublayer `q`, its key being in conflict with the suffix
  stored there: it takes the pointer out of the slot, generic.rs:1804-1835 -/
  | convert (x t q : Nat)
  /-- the holder has nothing more to do -/
  | giveUp (x : Nat)
  /-- the holder sets the split mark: generic.rs:1986 -/
  | markSplit (x : Nat)
  /-- the holder allocates leaf `y` and freezes the permutation, to split before position `sp` -/
  | freeze (x sp y : Nat)
  /-- the holder of `x` makes its next step -/
  | hold (x : Nat)
  /-- the new leaf `y` is unlocked, `unlock_for_split`: nodeversion.rs:936-950 -/
  | release (y : Nat)
  /-- thread `i` begins to look up `k`, at a leaf whose range begins at or before `k` -/
  | start (i x : Nat) (k : Key)
  /-- thread `i` makes the next step of its lookup -/
  | read (i : Nat)

/-- Store number `st` of those that turn a value into a sublayer: `conflictPlan`. -/
def convStore (b : Leaf V) (t q st : Nat) : Leaf V :=
  match (Race.conflictPlan t q)[st]? with
  | some m => m.app b
  | none => b

/-- What the holder does after store number `st`. -/
def convNext (lv : NV.W) (t q st : Nat) : HPc := if st < 4 then .conv lv t q (st + 1) else .locked lv

/-- Next step of the holder of `x`, where there is nothing to choose. -/
def hstep (s : St V) (x : Nat) : St V :=
  match s.hold x with
  | .take lv raw sp y j =>
    if j < size 5 raw then
      { s with
        leaf := upd (upd s.leaf y { s.leaf y with
            b := setSlot (s.leaf y).b (j - sp) ((s.leaf x).b.ikey (get 5 raw j)) ((s.leaf x).b.klx (get 5 raw j))
              ((s.leaf x).b.cell (get 5 raw j)) ((s.leaf x).b.ksuf (get 5 raw j)) })
          x { s.leaf x with b := { (s.leaf x).b with cell := upd (s.leaf x).b.cell (get 5 raw j) .null } }
        hold := upd s.hold x (.clear lv raw sp y j) }
    else { s with hold := upd s.hold x (.unfreeze lv raw sp y) }
  | .clear lv raw sp y j =>
    if (s.leaf x).b.klx (get 5 raw j) = 64 then
      { s with
        leaf := upd s.leaf x { s.leaf x with b := { (s.leaf x).b with
          klx := upd (s.leaf x).b.klx (get 5 raw j) 0, ksuf := upd (s.leaf x).b.ksuf (get 5 raw j) none } }
        hold := upd s.hold x (.take lv raw sp y (j + 1)) }
    else { s with hold := upd s.hold x (.take lv raw sp y (j + 1)) }
  | .unfreeze lv raw sp y =>
    { s with
      leaf := upd (upd s.leaf y { s.leaf y with b := { (s.leaf y).b with perm := makeSorted24 (size 5 raw - sp) } })
        x { s.leaf x with b := { (s.leaf x).b with perm := setSize 5 raw sp } }
      hold := upd s.hold x (.mark lv y) }
  | .mark lv y =>
    { s with leaf := upd s.leaf x { s.leaf x with mark := true }, hold := upd s.hold x (.setNext lv y) }
  | .setNext lv y =>
    { s with leaf := upd s.leaf y { s.leaf y with nx := (s.leaf x).nx }, hold := upd s.hold x (.publish lv y) }
  | .publish lv y =>
    { s with leaf := upd s.leaf x { s.leaf x with nx := y, mark := false }, hold := upd s.hold x (.unlock lv),
             live := upd s.live y true }
  | .unlock lv =>
    { s with leaf := upd s.leaf x { s.leaf x with word := NV.unlockOf lv }, hold := upd s.hold x .free }
  | .conv lv t q st =>
    { s with leaf := upd s.leaf x { s.leaf x with b := convStore (s.leaf x).b t q st },
             hold := upd s.hold x (convNext lv t q st) }
  | _ => s

/-- The effect of what happens; a step that cannot be made has no effect. -/
def act (fixed : Bool) (s : St V) : Act V → St V
  | .lock x =>
    if s.live x = true ∧ NV.lockable (s.leaf x).word = true then
      { s with leaf := upd s.leaf x { s.leaf x with word := NV.lockedOf (s.leaf x).word },
               hold := upd s.hold x (.locked (NV.lockedOf (s.leaf x).word)) }
    else s
  | .write x t ik kl c sf =>
    match s.hold x with
    | .locked _ =>
      if freeSlot (s.leaf x).b.perm t then
        { s with leaf := upd s.leaf x { s.leaf x with b := setSlot (s.leaf x).b t ik kl c sf } }
      else s
    | _ => s
  | .publish x pos off =>
    match s.hold x with
    | .locked _ =>
      let p := (s.leaf x).b.perm
      let y : Cas.Try := ⟨⟨0, 0⟩, 0#32, p, pos, off⟩
      if pos ≤ size 5 p ∧ off < 24 - size 5 p ∧ fits (s.leaf x) (s.leaf (s.leaf x).nx).lo pos y.slot = true then
        { s with leaf := upd s.leaf x { s.leaf x with b := { (s.leaf x).b with perm := y.newPerm } } }
      else s
    | _ => s
  | .update x t v =>
    match s.hold x, (s.leaf x).b.cell t with
    | .locked _, .val _ =>
      { s with leaf := upd s.leaf x { s.leaf x with b := { (s.leaf x).b with cell := upd (s.leaf x).b.cell t (.val v) } } }
    | _, _ => s
  | .convert x t q =>
    match s.hold x with
    | .locked lv =>
      if freeSlot (s.leaf x).b.perm t = false ∧ (s.leaf x).b.klx t = 64 then
        { s with leaf := upd s.leaf x { s.leaf x with b := convStore (s.leaf x).b t q 0 },
                 hold := upd s.hold x (convNext lv t q 0) }
      else s
    | _ => s
  | .giveUp x =>
    match s.hold x with
    | .locked lv => { s with hold := upd s.hold x (.unlock lv) }
    | _ => s
  | .markSplit x =>
    match s.hold x with
    | .locked lv =>
      { s with leaf := upd s.leaf x { s.leaf x with word := (NV.applyMark .split ((s.leaf x).word, lv)).1 },
               hold := upd s.hold x (.marked (NV.applyMark .split ((s.leaf x).word, lv)).2) }
    | _ => s
  | .freeze x sp y =>
    match s.hold x with
    | .marked lv =>
      let raw := (s.leaf x).b.perm
      if 0 < sp ∧ sp < size 5 raw ∧ (s.leaf x).b.ikey (get 5 raw (sp - 1)) < (s.leaf x).b.ikey (get 5 raw sp) ∧
          s.used y = false ∧ y ≠ 0 then
        { s with
          leaf := upd (upd s.leaf y ⟨Tree.emptyLeaf, NV.newForSplit (s.leaf x).word, 0, false, (s.leaf x).b.ikey (get 5 raw sp)⟩)
            x { s.leaf x with b := { (s.leaf x).b with perm := Freeze.freezeRaw raw } }
          hold := upd (upd s.hold y .newborn) x (.take lv raw sp y sp)
          used := upd s.used y true }
      else s
    | _ => s
  | .hold x => hstep s x
  | .release y =>
    match s.hold y with
    | .newborn =>
      if s.live y then
        { s with leaf := upd s.leaf y { s.leaf y with word := NV.unlockForSplit (s.leaf y).word },
                 hold := upd s.hold y .free }
      else s
    | _ => s
  | .start i x k =>
    match s.rd i with
    | .idle | .done _ _ _ =>
      if s.live x = true ∧ (s.leaf x).lo ≤ k.ikey then { s with rd := upd s.rd i (.leaf x (.stable k)) } else s
    | _ => s
  | .read i => { s with rd := upd s.rd i (cstep fixed s.leaf (s.rd i)) }

end Verif.Chain
