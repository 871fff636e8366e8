import Verif.Model.LeafRace
/-!
# Readers and writers on one leaf, with release/acquire memory

The threads of `Model/LeafRace.lean` on a machine whose memory is not sequentially consistent.  Memory keeps, for every
shared field, all values ever stored, with their places (timestamps) in the modification order of that field.  Every thread
has a view: for each field the oldest place it may still read from.  A load may return any value not older than that.

* A store with `Release` (ordering.rs:15, `WRITE_ORD`; nodeversion.rs:188) leaves the thread's view in the message.
* A load with `Acquire` (ordering.rs:11, `READ_ORD`; nodeversion.rs:428, 509) adds the view of the message to the thread's view.
* A store goes to any free place newer than the thread's view of that field, not necessarily to the end.
* The lock is a compare-and-swap that acquires but does not release (nodeversion.rs:635, 701).  It reads a message and takes the
  place right after it, so that no other store can come between; its message carries the view of the message it read (release
  sequence), not that of the thread.
* A relaxed load (nodeversion.rs:618, 688) only moves the thread's view of that field.

This is the release/acquire fragment of C11, of which the code's node accesses are part; compiler fences have no effect here.

Simplifications, beside those of `Model/LeafRace.lean` other than sequential consistency:

* an access to the suffix bag is an acquire load or a release store, one location per slot.  In the code the pointer to the bag
  is accessed in this way (leaf24.rs:352, 429) and the bag itself by plain memory accesses;
* the loads of the lock holder do not extend its view.  A smaller view only allows more.
-/
namespace Verif.Weak
open Verif.Spec (Bytes)
open Verif.Internode (upd)
open Verif.Perm (size get)
open Verif.Tree (Leaf Cell)
open Verif.Race
variable {V : Type}

/-- A shared field of the leaf: leaf24.rs:69-128. -/
inductive Loc where
  | ver
  | perm
  | ikey (s : Nat)
  | klx (s : Nat)
  | cell (s : Nat)
  | ksuf (s : Nat)
deriving DecidableEq

/-- Contents of a field. -/
inductive Val (V : Type) where
  | word (w : NV.W)
  | perm (p : BitVec 128)
  | num (x : Nat)
  | cell (c : Cell V)
  | suf (x : Option Bytes)

/-- A view: for each field a timestamp. -/
abbrev View := Loc → Nat

def View.join (a b : View) : View := fun l => max (a l) (b l)

def View.set (a : View) (l : Loc) (t : Nat) : View := fun x => if x = l then t else a x

/-- A value stored in memory with the view it carries.  No other message lies between timestamp `src` and the message's own. -/
structure Msg (V : Type) where
  val : Val V
  view : View
  src : Nat

/-- What a thread is doing: looking up (or nothing), or holding the lock with word `w` and some stores to make. -/
inductive Pc (V : Type) where
  | rd (pc : RPc V)
  | hold (w : NV.W) (todo : List (Micro V))

/-- The leaf as the lock holders know it, the version word, the stores still to be made, and the number of critical sections
that ended. -/
structure Now (V : Type) where
  b : Leaf V
  word : NV.W
  todo : List (Micro V)
  secs : Nat

/-- Memory and threads.  `past` is not part of the machine, it is used in statements only: `past j` is the leaf after the first
`j` stores to it, in the order in which the stores were made, and `at_ j l` the timestamp which field `l` had then. -/
structure St (V : Type) where
  mem : Loc → Nat → Option (Msg V)
  view : Nat → View
  pc : Nat → Pc V
  len : Nat
  past : Nat → Now V
  at_ : Nat → View

/-- Content of a field of a leaf with version `w`. -/
def content (b : Leaf V) (w : NV.W) : Loc → Val V
  | .ver => .word w
  | .perm => .perm b.perm
  | .ikey s => .num (b.ikey s)
  | .klx s => .num (b.klx s)
  | .cell s => .cell (b.cell s)
  | .ksuf s => .suf (b.ksuf s)

/-- Field written by a store. -/
def Micro.loc : Micro V → Loc
  | .ikey s _ => .ikey s
  | .klx s _ => .klx s
  | .cell s _ => .cell s
  | .ksuf s _ => .ksuf s
  | .perm _ => .perm

/-- Value written by a store. -/
def Micro.val : Micro V → Val V
  | .ikey _ x => .num x
  | .klx _ x => .num x
  | .cell _ c => .cell c
  | .ksuf _ x => .suf x
  | .perm p => .perm p

/-- Field that a lookup loads in its next step, if any. -/
def nextLoc : RPc V → Option Loc
  | .idle => none
  | .stable _ => some .ver
  | .perm _ _ => some .perm
  | .ikey _ _ p i => if i < size 5 p then some (.ikey (get 5 p i)) else none
  | .klx _ _ p i => some (.klx (get 5 p i))
  | .ptr _ _ p i _ => some (.cell (get 5 p i))
  | .sufKlx _ _ p i _ => some (.klx (get 5 p i))
  | .suf _ _ p i _ => some (.ksuf (get 5 p i))
  | .check _ _ _ => some .ver
  | .dirty _ => some .ver
  | .done _ _ => none

/-- Timestamp `t` of a field is not taken. -/
def Free (s : St V) (l : Loc) (t : Nat) : Prop := ∀ t' m, s.mem l t' = some m → ¬ (m.src < t ∧ t ≤ t')

/-- Nothing lies between `t0` (exclusive) and `t` (inclusive). -/
def Gap (s : St V) (l : Loc) (t0 t : Nat) : Prop := ∀ t' m, s.mem l t' = some m → t' ≤ t0 ∨ t ≤ m.src

def setMem (s : St V) (l : Loc) (t : Nat) (m : Msg V) : Loc → Nat → Option (Msg V) := fun x y => if x = l ∧ y = t then some m else s.mem x y

/-- Thread `i` may read from memory every field of leaf `b`, given its view `u`. -/
def Reads (s : St V) (u : View) (b : Leaf V) : Prop :=
  ∀ l, l ≠ .ver → ∃ t m, u l ≤ t ∧ s.mem l t = some m ∧ m.val = content b 0 l

/-- One step of the machine. -/
inductive Step (hasPrev : Bool) : St V → St V → Prop
  /-- a thread starts to look for a key in this leaf -/
  | start (s : St V) (i : Nat) (k : Key) (h : s.pc i = .rd .idle ∨ ∃ k' r, s.pc i = .rd (.done k' r)) :
      Step hasPrev s { s with pc := upd s.pc i (.rd (.stable k)) }
  /-- a lookup makes an acquire load -/
  | load (s : St V) (i : Nat) (pc : RPc V) (l : Loc) (t : Nat) (m : Msg V) (b : Leaf V) (w : NV.W) (h : s.pc i = .rd pc)
      (hl : nextLoc pc = some l) (ht : s.view i l ≤ t) (hm : s.mem l t = some m) (hb : content b w l = m.val) :
      Step hasPrev s { s with pc := upd s.pc i (.rd (rstep b w pc)),
                              view := upd s.view i (((s.view i).join m.view).set l (max t (m.view l))) }
  /-- a lookup makes a step that loads nothing -/
  | tau (s : St V) (i : Nat) (pc : RPc V) (b : Leaf V) (w : NV.W) (h : s.pc i = .rd pc) (hl : nextLoc pc = none) :
      Step hasPrev s { s with pc := upd s.pc i (.rd (rstep b w pc)) }
  /-- a relaxed load of the version, while waiting for the lock: nodeversion.rs:618 -/
  | peek (s : St V) (i : Nat) (t : Nat) (m : Msg V) (ht : s.view i .ver ≤ t) (hm : s.mem .ver t = some m) :
      Step hasPrev s { s with view := upd s.view i ((s.view i).set .ver t) }
  /-- the compare-and-swap of `lock` succeeds, and the thread searches the leaf: nodeversion.rs:628-640, generic.rs:1617-1860 -/
  | lock (s : St V) (i : Nat) (op : WOp V) (t0 t : Nat) (m : Msg V) (w : NV.W) (b : Leaf V)
      (h : s.pc i = .rd .idle ∨ ∃ k' r, s.pc i = .rd (.done k' r))
      (ht : s.view i .ver ≤ t0) (hm : s.mem .ver t0 = some m) (hw : m.val = .word w) (hlk : NV.lockable w = true)
      (hlt : t0 < t) (hg : Gap s .ver t0 t) (hb : Reads s ((s.view i).join m.view) b)
      (hk : ∃ d n, d.length ≤ maxKeyLength ∧ op.k = Key.shiftTimes n (Key.mk' d)) :
      Step hasPrev s
        { mem := setMem s .ver t ⟨.word (NV.lockedOf w), m.view.set .ver t, t0⟩,
          view := upd s.view i (((s.view i).join m.view).set .ver t),
          pc := upd s.pc i (.hold (NV.lockedOf w) (plan b hasPrev op)),
          len := s.len + 1,
          past := upd s.past (s.len + 1) ⟨(s.past s.len).b, NV.lockedOf w, plan b hasPrev op, (s.past s.len).secs⟩,
          at_ := upd s.at_ (s.len + 1) ((s.at_ s.len).set .ver t) }
  /-- the lock holder makes its next store, a release store -/
  | store (s : St V) (i : Nat) (w : NV.W) (m : Micro V) (ms : List (Micro V)) (t : Nat) (h : s.pc i = .hold w (m :: ms))
      (ht : s.view i (Micro.loc m) < t) (hf : Free s (Micro.loc m) t) :
      Step hasPrev s
        { mem := setMem s (Micro.loc m) t ⟨Micro.val m, (s.view i).set (Micro.loc m) t, t - 1⟩,
          view := upd s.view i ((s.view i).set (Micro.loc m) t),
          pc := upd s.pc i (.hold w ms),
          len := s.len + 1,
          past := upd s.past (s.len + 1) { s.past s.len with b := m.app (s.past s.len).b, todo := ms },
          at_ := upd s.at_ (s.len + 1) ((s.at_ s.len).set (Micro.loc m) t) }
  /-- the lock holder unlocks with a release store: nodeversion.rs:170-189 -/
  | unlock (s : St V) (i : Nat) (w : NV.W) (t : Nat) (h : s.pc i = .hold w []) (ht : s.view i .ver < t) (hf : Free s .ver t) :
      Step hasPrev s
        { mem := setMem s .ver t ⟨.word (NV.unlockOf w), (s.view i).set .ver t, t - 1⟩,
          view := upd s.view i ((s.view i).set .ver t),
          pc := upd s.pc i (.rd .idle),
          len := s.len + 1,
          past := upd s.past (s.len + 1) { s.past s.len with word := NV.unlockOf w, secs := (s.past s.len).secs + 1 },
          at_ := upd s.at_ (s.len + 1) ((s.at_ s.len).set .ver t) }
  /-- something outside the tree (a channel, a mutex, joining a thread) makes what thread `j` knows known to thread `i` -/
  | sync (s : St V) (i j : Nat) : Step hasPrev s { s with view := upd s.view i ((s.view i).join (s.view j)) }

/-- Every field has its first value, at timestamp 0, and nobody knows more. -/
structure Init (b : Leaf V) (w : NV.W) (s : St V) : Prop where
  mem : ∀ l, s.mem l = fun t => if t = 0 then some ⟨content b w l, fun _ => 0, 0⟩ else none
  view : ∀ i l, s.view i l = 0
  pc : ∀ i, s.pc i = .rd .idle
  len : s.len = 0
  past : s.past 0 = ⟨b, w, [], 0⟩
  at_ : s.at_ 0 = fun _ => 0

/-- Thread `i` knows the first `j` stores: they happen before whatever it does next. -/
def Knows (s : St V) (i j : Nat) : Prop := j ≤ s.len ∧ ∀ l, s.at_ j l ≤ s.view i l

end Verif.Weak
