/-!
Model of `/repo/src/nodeversion.rs`: the 32-bit version word, the guard operations on it and
the single-threaded variant. Memory orderings, back-off and tracing are not modelled.
-/
namespace Verif.NV

abbrev W := BitVec 32

/-- Bit constants, nodeversion.rs:33-60. -/
def LOCK : W := 1#32
def INSERTING : W := 1#32 <<< 1
def SPLITTING : W := 1#32 <<< 2
/-- nodeversion.rs:42. -/
def DIRTY : W := INSERTING ||| SPLITTING
def VINSERT : W := 1#32 <<< 3
def VSPLIT : W := 1#32 <<< 9
def UNUSED1 : W := 1#32 <<< 28
def DELETED : W := 1#32 <<< 29
def ROOT : W := 1#32 <<< 30
def ISLEAF : W := 1#32 <<< 31

/-- `SPLIT_UNLOCK_MASK`, nodeversion.rs:63. -/
def SPLIT_UNLOCK_MASK : W := ~~~(ROOT ||| UNUSED1 ||| (VSPLIT - 1#32))
/-- `UNLOCK_MASK`, nodeversion.rs:66. -/
def UNLOCK_MASK : W := ~~~(UNUSED1 ||| (VINSERT - 1#32))

/-- `NodeVersion::new`, nodeversion.rs:305-311. -/
def new (isLeaf : Bool) : W := if isLeaf then ISLEAF else 0#32

/-- Flag accessors, nodeversion.rs:331-375 and 969-972. -/
def isLeaf (v : W) : Bool := (v &&& ISLEAF) != 0#32
def isRoot (v : W) : Bool := (v &&& ROOT) != 0#32
def isDeleted (v : W) : Bool := (v &&& DELETED) != 0#32
def isLocked (v : W) : Bool := (v &&& LOCK) != 0#32
def isInserting (v : W) : Bool := (v &&& INSERTING) != 0#32
def isSplitting (v : W) : Bool := (v &&& SPLITTING) != 0#32
def isDirty (v : W) : Bool := (v &&& DIRTY) != 0#32
def isSplitLocked (v : W) : Bool := (v &&& (LOCK ||| SPLITTING)) == (LOCK ||| SPLITTING)

/-- The exit test of `stable`, nodeversion.rs:430: the word read is returned when this holds. -/
def stableOk (v : W) : Bool := (v &&& DIRTY) == 0#32

/-- The test in `lock` / `try_lock`, nodeversion.rs:622 and 691. -/
def lockable (v : W) : Bool := (v &&& (LOCK ||| DIRTY)) == 0#32

/-- The word installed by a successful `lock` / `try_lock` CAS, nodeversion.rs:628 and 696. -/
def lockedOf (v : W) : W := v ||| LOCK ||| INSERTING

/-- `LockGuard::drop`, nodeversion.rs:170-189: the word stored, computed from `locked_value`.
The Rust `+` would panic on overflow in debug builds; `C21_no_overflow` shows it cannot. -/
def unlockOf (lv : W) : W :=
  if (lv &&& SPLITTING) != 0#32 then (lv + VSPLIT) &&& SPLIT_UNLOCK_MASK
  else (lv + ((lv &&& INSERTING) <<< 2)) &&& UNLOCK_MASK

/-- `has_changed(old)` with current word `cur`, nodeversion.rs:493-510. -/
def hasChanged (old cur : W) : Bool := (LOCK ||| INSERTING) < (old ^^^ cur)

/-- `has_split(old)` / `simple_has_split(old)`, nodeversion.rs:520-525 and 541-543. -/
def hasSplit (old cur : W) : Bool := VSPLIT ≤ (old ^^^ cur)

/-- `has_changed_or_locked(old)`, nodeversion.rs:562-580. -/
def hasChangedOrLocked (old cur : W) : Bool :=
  if (LOCK ||| INSERTING) < (old ^^^ cur) then true
  else if (cur &&& DIRTY) != 0#32 then true else false

/-- `NodeVersion::mark_root` / `mark_nonroot` (fetch_or / fetch_and), nodeversion.rs:841-855. -/
def markRoot (v : W) : W := v ||| ROOT
def markNonroot (v : W) : W := v &&& ~~~ROOT

/-- `new_for_split(source)`, nodeversion.rs:891-913. -/
def newForSplit (source : W) : W := (source &&& ISLEAF) ||| LOCK ||| SPLITTING

/-- `unlock_for_split`, nodeversion.rs:936-961. -/
def unlockForSplit (lv : W) : W := (lv + VSPLIT) &&& SPLIT_UNLOCK_MASK

/-- The guard's marking operations. -/
inductive Mark
  | insert | split | deleted | nonroot
deriving DecidableEq, Repr

/-- Word and `locked_value` after a marking operation of the guard, nodeversion.rs:216-232
(`mark_insert`), 249-262 (`mark_split`), 271-283 (`mark_deleted`), 287-295 (`mark_nonroot`).
First component: the atomic word, second: the guard's `locked_value`. -/
def applyMark : Mark → W × W → W × W
  | .insert, (w, lv) =>
    if (lv &&& INSERTING) == 0#32 then (w ||| INSERTING, lv ||| INSERTING) else (w, lv)
  | .split, (w, lv) => (w ||| SPLITTING, lv ||| SPLITTING)
  | .deleted, (w, _) => (w ||| DELETED ||| SPLITTING, w ||| DELETED ||| SPLITTING)
  | .nonroot, (w, lv) => (w &&& ~~~ROOT, lv &&& ~~~ROOT)

/-- The word and `locked_value` while the lock is held: after the CAS and some marks. -/
def heldAfter (w : W) (ms : List Mark) : W × W :=
  ms.foldl (fun s m => applyMark m s) (lockedOf w, lockedOf w)

/-- One complete critical section: lock, marks, guard drop. -/
def cycle (w : W) (ms : List Mark) : W := unlockOf (heldAfter w ms).2

/-- What can happen to the word of an unlocked node: a complete critical section, or one of the
unguarded root-flag updates `mark_root` / `mark_nonroot`. -/
inductive Ev
  | cs (ms : List Mark)
  | setRoot
  | clearRoot
deriving DecidableEq, Repr

/-- The word after one event (see `cycle`, `markRoot`, `markNonroot`). -/
def stepEv (w : W) : Ev → W
  | .cs ms => cycle w ms
  | .setRoot => markRoot w
  | .clearRoot => markNonroot w

/-- The word after several events in a row. -/
def run (w : W) (es : List Ev) : W := es.foldl stepEv w

/-! ### `SingleThreadedNodeVersion`, nodeversion.rs:1005-1127 -/

/-- `SingleThreadedLockGuard` marks, nodeversion.rs:1036-1056. -/
def stMark : Mark → W → W
  | .insert, w => w
  | .split, w => w ||| SPLITTING
  | .deleted, w => w ||| (DELETED ||| SPLITTING)
  | .nonroot, w => w &&& ~~~ROOT

/-- `SingleThreadedLockGuard::drop`, nodeversion.rs:1020-1030. -/
def stUnlock (w : W) : W :=
  if (w &&& SPLITTING) != 0#32 then (w + VSPLIT) &&& SPLIT_UNLOCK_MASK
  else (w + VINSERT) &&& UNLOCK_MASK

/-- lock (a no-op, 1112-1114), marks, drop. -/
def stCycle (w : W) (ms : List Mark) : W := stUnlock (ms.foldl (fun w m => stMark m w) w)

end Verif.NV
