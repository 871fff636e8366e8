import Verif.Model.Tree
import Verif.Model.NodeVersion
/-!
# Readers and writers on one leaf

Interleaving machine for one leaf of a layer: any number of threads run the leaf part of `get`
(`get_concurrent_generic`, generic.rs:671-823) while writers, one at a time under the leaf's lock, run the leaf part of
`insert` (`insert_concurrent_generic`, generic.rs:1663-1860).  Every load and every store of a shared field is one step.

Simplifications:

* memory is sequentially consistent (the code uses acquire/release orderings and compiler fences);
* a writer acquires the lock (a successful compare-and-swap) and searches the leaf in one step; nobody else writes
  the leaf while it is locked, so its loads can be taken together;
* a write to the suffix bag is one step.  The bag is copied and replaced, or extended in place for a slot that no
  published permutation contains (leaf24.rs:396-480);
* the leaf is not split here, so `next` never has to be followed and the permutation is never frozen.  A writer that
  would have to split leaves the leaf as it is.  Splits are not part of this machine;
* no node is ever deleted (there is no deletion in the crate), so `is_deleted` is not loaded;
* `mark_insert` finds the bit already set by `lock` and does nothing (nodeversion.rs:208-232), and is left out.
-/
namespace Verif.Race
open Verif.Spec (Bytes)
open Verif.Internode (upd)
open Verif.Perm (size get back insertFromBack swapFreeSlots)
open Verif.Tree (Leaf Cell ksufKeylenx layerKeylenx leafWidth searchKlx searchGet searchForInsert findAlt)
variable {V : Type}

/-- One store to a shared field of a leaf. -/
inductive Micro (V : Type) where
  /-- `set_ikey`: leaf24.rs:254 -/
  | ikey (s x : Nat)
  /-- `set_keylenx`: leaf24.rs:293, and the stores inside `assign_ksuf` and `clear_ksuf` (396-480) -/
  | klx (s x : Nat)
  /-- `set_leaf_value_ptr`, `take_leaf_value_ptr`: leaf24.rs:637-660 -/
  | cell (s : Nat) (c : Cell V)
  /-- the suffix bag now holds this for the slot: leaf24.rs:396-480 -/
  | ksuf (s : Nat) (x : Option Bytes)
  /-- `set_permutation`: leaf24.rs:675 -/
  | perm (p : BitVec 128)

/-- Effect of a store. -/
def Micro.app (b : Leaf V) : Micro V → Leaf V
  | .ikey s x => { b with ikey := upd b.ikey s x }
  | .klx s x => { b with klx := upd b.klx s x }
  | .cell s c => { b with cell := upd b.cell s c }
  | .ksuf s x => { b with ksuf := upd b.ksuf s x }
  | .perm p => { b with perm := p }

/-- An insert arriving at the leaf.  `q` is the pointer of the sublayer that `create_layer_concurrent_generic` builds
in private memory should the key clash with a suffix (generic.rs:1811-1819). -/
structure WOp (V : Type) where
  k : Key
  v : V
  q : Nat

/-- Stores of `assign_slot_generic` (generic.rs:1883-1914, leaf24.rs:396-440) followed by `set_permutation`
(1758, 1783). -/
def insertPlan (s : Nat) (k : Key) (v : V) (p : BitVec 128) : List (Micro V) :=
  if k.hasSuffix then
    [.ikey s k.ikey, .cell s (.val v), .klx s ksufKeylenx, .ksuf s (some k.suffix), .klx s ksufKeylenx, .perm p]
  else [.ikey s k.ikey, .cell s (.val v), .klx s k.currentLen, .perm p]

/-- Stores of the `Conflict` branch (generic.rs:1804-1858, leaf24.rs:449-480): take the pointer, clear the suffix
(which also zeroes `keylenx`), then install the layer. -/
def conflictPlan (s q : Nat) : List (Micro V) :=
  [.cell s .null, .ksuf s none, .klx s 0, .klx s layerKeylenx, .cell s (.layer q)]

/-- `can_reuse_slot0`: leaf24.rs:954. `hasPrev` does not change during the life of a leaf. -/
def reuse0 (b : Leaf V) (hasPrev : Bool) (ik : Nat) : Bool := if hasPrev then b.ikey 0 == ik else true

/-- What the lock holder will store: generic.rs:1667-1858. -/
def plan (b : Leaf V) (hasPrev : Bool) (op : WOp V) : List (Micro V) :=
  match searchForInsert b op.k 0 (size 5 b.perm) with
  | .found s =>
    match b.cell s with
    | .null => []
    | _ => [.cell s (.val op.v)]
  | .notFound pos =>
    if leafWidth ≤ size 5 b.perm then []
    else
      let s := back 5 24 b.perm
      if s = 0 ∧ reuse0 b hasPrev op.k.ikey = false then
        match findAlt b.perm 1 (leafWidth - size 5 b.perm - 1) with
        | some (alt, off) =>
          insertPlan alt op.k op.v (insertFromBack 5 24 (swapFreeSlots 5 b.perm 23 (23 - off)) pos).1
        | none => []
      else insertPlan s op.k op.v (insertFromBack 5 24 b.perm pos).1
  | .layer _ => []
  | .conflict s => conflictPlan s op.q

/-- What a lookup can find in a leaf. -/
inductive Out (V : Type) where
  | absent
  | value (v : V)
  | descend (q : Nat)
  /-- a layer pointer used as a value, a value used as a layer, or null used as either -/
  | misread
deriving DecidableEq, Repr

/-- Interpretation of the recorded `(keylenx, ptr)`: generic.rs:768-783. -/
def interp (x : Nat) (c : Cell V) : Out V :=
  if layerKeylenx ≤ x then
    match c with
    | .layer q => .descend q
    | _ => .misread
  else
    match c with
    | .val v => .value v
    | _ => .misread

/-- Program counter of a reader.  `k` is the key, `v` the version snapshot, `p` the permutation it loaded, `i` the
position it is at. -/
inductive RPc (V : Type) where
  | idle
  /-- about to load the version in `stable`: generic.rs:676, 765-766, 787-788 -/
  | stable (k : Key)
  /-- about to load the permutation: 685 -/
  | perm (k : Key) (v : NV.W)
  /-- about to load the ikey of position `i`: 713, or at the end of the scan -/
  | ikey (k : Key) (v : NV.W) (p : BitVec 128) (i : Nat)
  /-- about to load `keylenx`: 719 -/
  | klx (k : Key) (v : NV.W) (p : BitVec 128) (i : Nat)
  /-- about to load the pointer, having loaded `keylenx = x`: 720 -/
  | ptr (k : Key) (v : NV.W) (p : BitVec 128) (i x : Nat)
  /-- in `ksuf_equals`, about to load `keylenx` again: leaf24.rs:489 -/
  | sufKlx (k : Key) (v : NV.W) (p : BitVec 128) (i : Nat) (c : Cell V)
  /-- in `ksuf_equals`, about to load and compare the suffix: leaf24.rs:493-499 -/
  | suf (k : Key) (v : NV.W) (p : BitVec 128) (i : Nat) (c : Cell V)
  /-- about to validate with `has_changed`, having recorded `snap`: generic.rs:748 -/
  | check (k : Key) (v : NV.W) (snap : Option (Nat × Cell V))
  /-- nothing found, about to look at the dirty bits: 787 -/
  | dirty (k : Key)
  /-- the lookup's result in this leaf -/
  | done (k : Key) (r : Out V)
deriving DecidableEq

/-- The leaf and its version word, the stores the lock holder has still to make, the number of critical sections that
ended (not part of the code, used in statements only) and all readers. -/
structure St (V : Type) where
  b : Leaf V
  word : NV.W
  todo : List (Micro V)
  secs : Nat
  rd : Nat → RPc V

/-- One step of a reader: it only reads `b` and `word`. -/
def rstep (b : Leaf V) (word : NV.W) : RPc V → RPc V
  | .idle => .idle
  | .stable k => if NV.isDirty word then .stable k else .perm k word
  | .perm k v => .ikey k v b.perm 0
  | .ikey k v p i =>
    if i < size 5 p then
      if b.ikey (get 5 p i) = k.ikey then .klx k v p i else .ikey k v p (i + 1)
    else .check k v none
  | .klx k v p i => .ptr k v p i (b.klx (get 5 p i))
  | .ptr k v p i x =>
    match b.cell (get 5 p i) with
    | .null => .ikey k v p (i + 1)
    | c =>
      if x = searchKlx k then
        if x = ksufKeylenx then .sufKlx k v p i c else .check k v (some (x, c))
      else if layerKeylenx ≤ x ∧ k.hasSuffix then .check k v (some (x, c))
      else .ikey k v p (i + 1)
  | .sufKlx k v p i c =>
    if b.klx (get 5 p i) = ksufKeylenx then .suf k v p i c else .ikey k v p (i + 1)
  | .suf k v p i c =>
    if b.ksuf (get 5 p i) = some k.suffix then .check k v (some (ksufKeylenx, c)) else .ikey k v p (i + 1)
  | .check k v snap =>
    if NV.hasChanged v word then .stable k
    else
      match snap with
      | some (x, c) => .done k (interp x c)
      | none => .dirty k
  | .dirty k => if NV.isDirty word then .stable k else .done k .absent
  | .done k r => .done k r

/-- One step of the system. -/
inductive Step (hasPrev : Bool) : St V → St V → Prop
  /-- a thread starts to look for a key in this leaf -/
  | start (s : St V) (i : Nat) (k : Key) (h : s.rd i = .idle ∨ ∃ k' r, s.rd i = .done k' r) :
      Step hasPrev s { s with rd := upd s.rd i (.stable k) }
  /-- a reader makes its next load -/
  | read (s : St V) (i : Nat) : Step hasPrev s { s with rd := upd s.rd i (rstep s.b s.word (s.rd i)) }
  /-- a writer locks the leaf: generic.rs:1617, nodeversion.rs:633-636.  Its key is one made by `Key::new`, shifted
  some number of times. -/
  | lock (s : St V) (op : WOp V) (h : NV.lockable s.word = true)
      (hk : ∃ d n, d.length ≤ maxKeyLength ∧ op.k = Key.shiftTimes n (Key.mk' d)) :
      Step hasPrev s { s with word := NV.lockedOf s.word, todo := plan s.b hasPrev op }
  /-- the lock holder makes its next store -/
  | store (s : St V) (m : Micro V) (ms : List (Micro V)) (h : s.todo = m :: ms) :
      Step hasPrev s { s with b := m.app s.b, todo := ms }
  /-- the lock holder, having made its stores, unlocks: nodeversion.rs:170-189 -/
  | unlock (s : St V) (h : s.todo = []) (hl : NV.isLocked s.word = true) :
      Step hasPrev s { s with word := NV.unlockOf s.word, secs := s.secs + 1 }

end Verif.Race
