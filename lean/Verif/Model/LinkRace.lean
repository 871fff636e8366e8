import Verif.Model.Link
/-!
# Threads linking new leaves into the leaf chain

Interleaving machine for `link_sibling` (leaf24.rs:1432-1490) with `lock_next` (849-886): any number of threads link new
right siblings, also several to the right of the same leaf.  Leaves are named by their addresses; `next` holds address
words with the mark bit of link.rs.  Every load, store and compare-and-swap is one step.

Simplifications:

* memory is sequentially consistent;
* `wait_for_split` (leaf24.rs:813-835) only delays: a thread that finds the mark set goes back to loading the pointer.
  Whatever the wait does (it gives up after 1000 rounds), the next action is that load;
* the contents of the leaves and the leaf locks are not represented: the machine lets threads link next to the same leaf
  at the same time, which the leaf lock would exclude.
-/
namespace Verif.LinkRace
open Verif.Link (mark unmark isMarked)

/-- An address. -/
abbrev A := BitVec 64

/-- Program counter of a thread linking `n` to the right of `a`; `x` is the old next pointer. -/
inductive Pc where
  | idle
  /-- about to load `a.next`: leaf24.rs:854 -/
  | load (a n : A)
  /-- about to swap `x` for its marked form: 863-867 -/
  | cas (a n x : A)
  /-- about to store `n.prev = a`: 1462 -/
  | prev (a n x : A)
  /-- about to store `n.next = x`: 1463 -/
  | nxt (a n x : A)
  /-- about to store `x.prev = n` unless `x` is null: 1466-1468 -/
  | back (a n x : A)
  /-- about to store `a.next = n`: 1476 -/
  | publish (a n x : A)
deriving DecidableEq

/-- All pointers, all threads, and the set of leaves that are in the chain (`lnk` is not part of the code). -/
structure St where
  next : A → A
  prev : A → A
  th : Nat → Pc
  lnk : A → Bool

/-- Function update. -/
def upd {α β : Type} [DecidableEq α] (f : α → β) (a : α) (b : β) : α → β := fun x => if x = a then b else f x

/-- One step of thread `i`. -/
def tstep (s : St) (i : Nat) : St :=
  match s.th i with
  | .idle => s
  | .load a n =>
    if isMarked (s.next a) then s else { s with th := upd s.th i (.cas a n (s.next a)) }
  | .cas a n x =>
    if s.next a = x then { s with next := upd s.next a (mark x), th := upd s.th i (.prev a n x) }
    else { s with th := upd s.th i (.load a n) }
  | .prev a n x => { s with prev := upd s.prev n a, th := upd s.th i (.nxt a n x) }
  | .nxt a n x => { s with next := upd s.next n x, th := upd s.th i (.back a n x) }
  | .back a n x =>
    if x = 0#64 then { s with th := upd s.th i (.publish a n x) }
    else { s with prev := upd s.prev x n, th := upd s.th i (.publish a n x) }
  | .publish a n _ => { s with next := upd s.next a n, th := upd s.th i .idle, lnk := upd s.lnk n true }

/-- The leaf a thread is linking. -/
def Pc.new? : Pc → Option A
  | .idle => none
  | .load _ n | .cas _ n _ | .prev _ n _ | .nxt _ n _ | .back _ n _ | .publish _ n _ => some n

/-- Steps: a thread may begin to link a new leaf, one that is properly aligned, not in the chain and not being linked by
anybody else, to the right of a leaf that is in the chain (the caller's contract, leaf24.rs:1456). -/
inductive Step : St → St → Prop
  | start (s : St) (i : Nat) (a n : A) : s.th i = .idle → s.lnk a = true → s.lnk n = false → isMarked n = false →
      n ≠ 0#64 → (∀ j, (s.th j).new? ≠ some n) → Step s { s with th := upd s.th i (.load a n) }
  | thread (s : St) (i : Nat) : Step s (tstep s i)

end Verif.LinkRace
