import Verif.Model.NodeVersion
/-!
Interleaving machine for one node's version word, nodeversion.rs:169-296 and 605-961, with any
number of threads (thread ids are natural numbers). Every atomic access is one step. Memory is
sequentially consistent (simplification: the code uses acquire/release orderings).
-/
namespace Verif.NV

/-- What a thread is doing with the node's lock. -/
inductive TS
  /-- not using the lock -/
  | idle
  /-- in `lock` / `try_lock` / `lock_with_yield` / `try_lock_for`, having loaded a lockable word
  (nodeversion.rs:618-622, 688-691), about to compare-and-swap -/
  | want (v : W)
  /-- owns a `LockGuard` with this `locked_value` -/
  | held (lv : W)
  /-- in a guard's mark operation: loaded `v` (220, 251, 273, 289), about to store -/
  | marking (m : Mark) (lv v : W)
  /-- created the node with `new_for_split`: it is locked without a guard (891-913) -/
  | splitOwner
  /-- in `unlock_for_split`: loaded `v` (937), about to store (960) -/
  | splitUnlocking (v : W)
deriving DecidableEq, Repr

/-- The thread currently has exclusive ownership. -/
def TS.owns : TS → Bool
  | .idle => false
  | .want _ => false
  | _ => true

/-- Shared word and the state of every thread. -/
structure LM where
  word : W
  ts : Nat → TS

def LM.setT (s : LM) (t : Nat) (x : TS) : Nat → TS := fun u => if u = t then x else s.ts u

/-- One atomic step by thread `t`. -/
inductive LStep : LM → Nat → LM → Prop
  /-- load in the lock loop; an unlockable word means spinning, which changes nothing (618-622) -/
  | load (s : LM) (t : Nat) (h : s.ts t = .idle) (hl : lockable s.word = true) :
      LStep s t ⟨s.word, s.setT t (.want s.word)⟩
  /-- successful CAS (633-636, 699-703) -/
  | casOk (s : LM) (t : Nat) (v : W) (h : s.ts t = .want v) (he : s.word = v) :
      LStep s t ⟨lockedOf v, s.setT t (.held (lockedOf v))⟩
  /-- failed (or spuriously failed, 635 is a weak CAS) CAS, or giving up -/
  | casFail (s : LM) (t : Nat) (v : W) (h : s.ts t = .want v) :
      LStep s t ⟨s.word, s.setT t .idle⟩
  /-- first half of a mark: the load -/
  | markLoad (s : LM) (t : Nat) (m : Mark) (lv : W) (h : s.ts t = .held lv) :
      LStep s t ⟨s.word, s.setT t (.marking m lv s.word)⟩
  /-- second half of a mark: the store; `applyMark` gives the stored word from the loaded one
  and the new `locked_value` -/
  | markStore (s : LM) (t : Nat) (m : Mark) (lv v : W) (h : s.ts t = .marking m lv v) :
      LStep s t ⟨if m = .insert ∧ ((lv &&& INSERTING) == 0#32) = false then s.word
                 else (applyMark m (v, lv)).1, s.setT t (.held (applyMark m (v, lv)).2)⟩
  /-- guard drop: one store computed from `locked_value` (170-189) -/
  | drop (s : LM) (t : Nat) (lv : W) (h : s.ts t = .held lv) :
      LStep s t ⟨unlockOf lv, s.setT t .idle⟩
  | splitLoad (s : LM) (t : Nat) (h : s.ts t = .splitOwner) :
      LStep s t ⟨s.word, s.setT t (.splitUnlocking s.word)⟩
  | splitStore (s : LM) (t : Nat) (v : W) (h : s.ts t = .splitUnlocking v) :
      LStep s t ⟨unlockForSplit v, s.setT t .idle⟩
  /-- unguarded root-flag updates by any thread at any time (841-855) -/
  | setRoot (s : LM) (t : Nat) : LStep s t ⟨markRoot s.word, s.ts⟩
  | clearRoot (s : LM) (t : Nat) : LStep s t ⟨markNonroot s.word, s.ts⟩

/-- Initial states: a fresh node (305-311) nobody uses, or a node just created by thread `t`
with `new_for_split` (891-913). -/
inductive LInit : LM → Prop
  | fresh (b : Bool) : LInit ⟨new b, fun _ => .idle⟩
  | born (src : W) (t : Nat) : LInit ⟨newForSplit src, fun u => if u = t then .splitOwner else .idle⟩

inductive LReach : LM → Prop
  | init {s : LM} (h : LInit s) : LReach s
  | step {s s' : LM} {t : Nat} (h : LReach s) (hs : LStep s t s') : LReach s'

end Verif.NV
