import Verif.Model.Permuter
import Verif.Model.Freeze24
import Verif.Model.NodeVersion
import Verif.Model.Internode
/-!
# Lock-free inserts and splits on one leaf

Interleaving machine for one leaf: any number of threads run the lock-free insert `try_cas_insert_generic`
(generic.rs:935-1255) on it, while the holder of the leaf's lock splits it (`split_into_preallocated`,
leaf24.rs:1246-1340, with the freeze protocol of leaf24/freeze.rs) or, when `mixed` is set, inserts into it under the
lock (`insert_concurrent_generic`, generic.rs:1747-1783).  Every load, store and compare-and-swap of a shared field is
one step.

Simplifications:

* memory is sequentially consistent;
* the search for the key's position and the scan of the free region (generic.rs:1008-1070) may return any position and
  any free slot: the machine allows more behaviour than the code;
* the retry counter is left out: a thread that must retry or fall back goes back to `idle`, from where it may start
  again with any key (generic.rs:1080-1092 and the like);
* keys handled by the lock-free path have no suffix (generic.rs:955-957), so the suffix bag is left out;
* a value pointer is a number that no other allocation has (`output_to_raw` returns a fresh pointer or clones a shared
  one; the second case makes pointers equal only for equal values and is not modelled);
* the new leaf of a split is private to the splitter, and is not represented.
-/
namespace Verif.Cas
open Verif.Internode (upd)
open Verif.Perm (size get back insertFromBack swapFreeSlots setSize)

/-- A slot's pointer: null, the sentinel of `claiming_ptr()` (generic.rs:1078), or a value pointer. -/
inductive Cell where
  | null
  | claiming
  | val (t : Nat)
deriving DecidableEq, Repr

/-- What an insert wants to store under: the slice `key.ikey()` and `key.current_len()`, generic.rs:945-948. -/
structure Op where
  ikey : Nat
  klx : Nat
deriving DecidableEq, Repr

/-- What a lock-free insert has computed before it claims a slot: its version snapshot, the permutation it loaded, the
position found for the key and the offset of the chosen slot from the back of the free region,
generic.rs:989-1057. -/
structure Try where
  o : Op
  v : NV.W
  p : BitVec 128
  pos : Nat
  off : Nat
deriving DecidableEq

/-- The chosen slot, `perm.back_at_offset(offset)`: generic.rs:1035. -/
def Try.slot (y : Try) : Nat := get 5 y.p (23 - y.off)

/-- The permutation that would publish it: generic.rs:1063-1075. -/
def Try.newPerm (y : Try) : BitVec 128 :=
  if y.off = 0 then (insertFromBack 5 24 y.p y.pos).1
  else (insertFromBack 5 24 (swapFreeSlots 5 y.p 23 (23 - y.off)) y.pos).1

/-- Program counter of a lock-free insert. -/
inductive Pc where
  | idle
  /-- about to load the version: generic.rs:989 -/
  | ver (o : Op)
  /-- about to load it again for `is_dirty`: 990 -/
  | dirty (o : Op) (v : NV.W)
  /-- about to load the permutation, `permutation_try`: 997 -/
  | perm (o : Op) (v : NV.W)
  /-- about to search and to choose a slot: 1003-1075 -/
  | search (o : Op) (v : NV.W) (p : BitVec 128)
  /-- about to swap null for the sentinel: 1090-1092 -/
  | claim (y : Try)
  /-- about to check the version: 1109 -/
  | chk1 (y : Try)
  /-- about to store the slice: `store_key_data_for_cas`, 1128, leaf24.rs:733-740 -/
  | key (y : Try)
  /-- about to store the length: same -/
  | klx (y : Try)
  /-- about to check the version: 1132 -/
  | chk2 (y : Try)
  /-- about to swap the sentinel for the value pointer: 1150 -/
  | install (y : Try)
  /-- about to verify the pointer: 1170 -/
  | verify (y : Try) (t : Nat)
  /-- about to check the version: 1186 -/
  | chk3 (y : Try) (t : Nat)
  /-- about to swap the permutation: 1215 -/
  | publish (y : Try) (t : Nat)
  /-- about to swap the value pointer for null: 1187, 1223 -/
  | undo (y : Try) (t : Nat)
  /-- about to swap the sentinel for null: 1111, 1134 -/
  | release (y : Try)
deriving DecidableEq

/-- Program counter of the thread that holds the lock; `lv` is the guard's `locked_value`. -/
inductive HPc where
  | free
  /-- has locked, nothing done yet -/
  | locked (lv : NV.W)
  /-- has set the split mark (generic.rs:1986), about to load the permutation: leaf24/freeze.rs:228 -/
  | marked (lv : NV.W)
  /-- about to swap the loaded word for its frozen form: leaf24/freeze.rs:238-247 -/
  | freezing (lv : NV.W) (raw : BitVec 128)
  /-- frozen; about to take the pointer at position `j`: leaf24.rs:1298-1310 -/
  | take (lv : NV.W) (raw : BitVec 128) (sp j : Nat)
  /-- about to clear the length of the slot at position `j` if it had a suffix: leaf24.rs:1313-1321 -/
  | clear (lv : NV.W) (raw : BitVec 128) (sp j : Nat)
  /-- about to store the truncated permutation: leaf24.rs:1329-1333, leaf24/freeze.rs:314-330 -/
  | unfreeze (lv : NV.W) (raw : BitVec 128) (sp : Nat)
  /-- about to drop the guard: generic.rs:2060-2069 -/
  | unlock (lv : NV.W)
  /-- insert under the lock: about to load the permutation, generic.rs:1667 -/
  | iload (lv : NV.W) (o : Op)
  /-- about to store the slice, `assign_slot_generic`: generic.rs:1883-1914 -/
  | ikey (lv : NV.W) (o : Op) (p : BitVec 128) (pos : Nat)
  /-- about to store the pointer: same -/
  | iptr (lv : NV.W) (o : Op) (p : BitVec 128) (pos : Nat)
  /-- about to store the length: same -/
  | iklx (lv : NV.W) (o : Op) (p : BitVec 128) (pos : Nat)
  /-- about to store the permutation: generic.rs:1783 -/
  | iperm (lv : NV.W) (p : BitVec 128) (pos : Nat)
  /-- one of the three assertions of `freeze_permutation` (leaf24/freeze.rs:211-236) failed -/
  | panicked
deriving DecidableEq

/-- The leaf, its version word, the lock holder and all lock-free inserts.  `next` is the next fresh value pointer;
`made t` is the key for which pointer `t` was made.  Both are not part of the code: the first stands for the allocator,
the second is used in statements only. -/
structure St where
  perm : BitVec 128
  ikey : Nat → Nat
  klx : Nat → Nat
  cell : Nat → Cell
  word : NV.W
  hold : HPc
  th : Nat → Pc
  next : Nat
  made : Nat → Op

/-- Compare-and-swap of a slot's pointer, `cas_slot_value`: leaf24.rs:698-714. -/
def casCell (s : St) (x : Nat) (old new : Cell) : St := if s.cell x = old then { s with cell := upd s.cell x new } else s

/-- Move a thread. -/
def St.go (s : St) (i : Nat) (c : Pc) : St := { s with th := upd s.th i c }

/-- One step of lock-free insert `i`; `pos` and `off` are what its search returns, if it is searching. -/
def tstep (s : St) (i pos off : Nat) : St :=
  match s.th i with
  | .idle => s
  | .ver o => s.go i (.dirty o s.word)
  | .dirty o v => if NV.isDirty s.word then s.go i .idle else s.go i (.perm o v)
  | .perm o v => if Freeze.isFrozen s.perm then s.go i .idle else s.go i (.search o v s.perm)
  | .search o v p =>
    if pos ≤ size 5 p ∧ off < 24 - size 5 p then s.go i (.claim ⟨o, v, p, pos, off⟩) else s.go i .idle
  | .claim y =>
    if s.cell y.slot = .null then ({ s with cell := upd s.cell y.slot .claiming }).go i (.chk1 y) else s.go i .idle
  | .chk1 y => if NV.hasChangedOrLocked y.v s.word then s.go i (.release y) else s.go i (.key y)
  | .key y => ({ s with ikey := upd s.ikey y.slot y.o.ikey }).go i (.klx y)
  | .klx y => ({ s with klx := upd s.klx y.slot y.o.klx }).go i (.chk2 y)
  | .chk2 y => if NV.hasChangedOrLocked y.v s.word then s.go i (.release y) else s.go i (.install y)
  | .install y =>
    if s.cell y.slot = .claiming then
      ({ s with cell := upd s.cell y.slot (.val s.next), next := s.next + 1, made := upd s.made s.next y.o }).go i
        (.verify y s.next)
    else s.go i (.release y)
  | .verify y t => if s.cell y.slot = .val t then s.go i (.chk3 y t) else s.go i .idle
  | .chk3 y t => if NV.hasChangedOrLocked y.v s.word then s.go i (.undo y t) else s.go i (.publish y t)
  | .publish y t =>
    if s.perm = y.p then ({ s with perm := y.newPerm }).go i .idle else s.go i (.undo y t)
  | .undo y t => (casCell s y.slot (.val t) .null).go i .idle
  | .release y => (casCell s y.slot .claiming .null).go i .idle

/-- One step of the lock holder.  `n` is a choice the code makes from data that is not represented: the split point when
the permutation is frozen (`calculate_split_point`), whether a moved entry had a suffix, or the position for a new
key. -/
def hstep (s : St) (n : Nat) : St :=
  match s.hold with
  | .free => s
  | .panicked => s
  | .locked lv =>
    { s with word := (NV.applyMark .split (s.word, lv)).1, hold := .marked (NV.applyMark .split (s.word, lv)).2 }
  | .marked lv =>
    if NV.isLocked s.word = false ∨ NV.isSplitting s.word = false ∨ Freeze.isFrozen s.perm = true then
      { s with hold := .panicked }
    else { s with hold := .freezing lv s.perm }
  | .freezing lv raw =>
    if s.perm = raw then
      if 0 < n ∧ n < size 5 raw then { s with perm := Freeze.freezeRaw raw, hold := .take lv raw n n }
      else s
    else { s with hold := .marked lv }
  | .take lv raw sp j =>
    if j < size 5 raw then { s with cell := upd s.cell (get 5 raw j) .null, hold := .clear lv raw sp j }
    else { s with hold := .unfreeze lv raw sp }
  | .clear lv raw sp j =>
    if n = 0 then { s with hold := .take lv raw sp (j + 1) }
    else { s with klx := upd s.klx (get 5 raw j) 0, hold := .take lv raw sp (j + 1) }
  | .unfreeze lv raw sp => { s with perm := setSize 5 raw sp, hold := .unlock lv }
  | .unlock lv => { s with word := NV.unlockOf lv, hold := .free }
  | .iload lv o =>
    if n ≤ size 5 s.perm ∧ size 5 s.perm < 24 then { s with hold := .ikey lv o s.perm n } else { s with hold := .unlock lv }
  | .ikey lv o p pos => { s with ikey := upd s.ikey (back 5 24 p) o.ikey, hold := .iptr lv o p pos }
  | .iptr lv o p pos =>
    { s with cell := upd s.cell (back 5 24 p) (.val s.next), next := s.next + 1, made := upd s.made s.next o,
             hold := .iklx lv o p pos }
  | .iklx lv o p pos => { s with klx := upd s.klx (back 5 24 p) o.klx, hold := .iperm lv p pos }
  | .iperm lv p pos => { s with perm := (insertFromBack 5 24 p pos).1, hold := .unlock lv }

/-- Steps of the machine.  `mixed` says whether inserts under the lock run as well. -/
inductive Step (mixed : Bool) : St → St → Prop
  /-- a thread begins a lock-free insert -/
  | start (s : St) (i : Nat) (o : Op) : s.th i = .idle → Step mixed s (s.go i (.ver o))
  | thread (s : St) (i pos off : Nat) : Step mixed s (tstep s i pos off)
  /-- somebody acquires the lock: nodeversion.rs:610-650 -/
  | lock (s : St) : NV.lockable s.word = true →
      Step mixed s { s with word := NV.lockedOf s.word, hold := .locked (NV.lockedOf s.word) }
  | hold (s : St) (n : Nat) : Step mixed s (hstep s n)
  /-- the holder has nothing to do and will unlock -/
  | giveUp (s : St) (lv : NV.W) : s.hold = .locked lv → Step mixed s { s with hold := .unlock lv }
  /-- the holder inserts -/
  | insert (s : St) (lv : NV.W) (o : Op) : mixed = true → s.hold = .locked lv → Step mixed s { s with hold := .iload lv o }

end Verif.Cas
