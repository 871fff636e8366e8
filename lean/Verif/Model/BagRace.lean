import Verif.Spec.Suffix
import Verif.Model.Internode
/-!
# Lookups that read suffixes while they are being stored

The suffix bag of one leaf: every access to its memory is a step.  One thread at a time stores (the lock holder; exclusion is C27
and C52), any number of threads read.  Bags are allocated, published, retired and released.

The pointer to the bag and the key lengths are atomic fields (leaf24.rs:69-128).  The bag itself is plain memory: `slots[s].offset`,
`slots[s].len`, the length of the vector and its bytes (suffix.rs:20-91).  Whether two accesses to it can race is part of the claims.

Simplifications: accesses are sequentially consistent; bytes are copied in ascending order; a comparison reads all bytes of the
suffix; `compact_ksuf` is left out (no caller); addresses of released bags are not used again; the reclamation scheme is its contract
(a retired bag is released when no guard that was active at its retirement is left).
-/
namespace Verif.BagRace
open Verif.Spec (Bytes)
open Verif.Suffix (LOp ksufKeylenx initialCapacity)
open Verif.Internode (upd)

/-- `SlotMeta::EMPTY.offset`: suffix.rs:27-30. -/
def none32 : Nat := 2 ^ 32 - 1

/-- A suffix bag in memory: suffix.rs:85-91.  `used` is `data.len()`, `mem` the buffer of `data`, of which the first `used` bytes are
its contents. -/
structure Bag where
  off : Nat → Nat
  len : Nat → Nat
  mem : Nat → UInt8
  used : Nat
  cap : Nat

/-- `SuffixBag::new`: suffix.rs:101-106. -/
def Bag.new : Bag := ⟨fun _ => none32, fun _ => 0, fun _ => 0, 0, initialCapacity⟩

/-- The buffer with `x` written at `o`. -/
def setBytes (mem : Nat → UInt8) (o : Nat) : Bytes → Nat → UInt8
  | [] => mem
  | x :: xs => setBytes (upd mem o x) (o + 1) xs

/-- `clone`: suffix.rs:480-485; the clone's capacity is up to the allocator. -/
def Bag.clone (b : Bag) (ccap : Nat) : Bag := { b with cap := max ccap b.used }

/-- `assign` on a bag that is not shared yet: suffix.rs:292-315. `grow` is the capacity chosen by `Vec::extend_from_slice`. -/
def Bag.appended (b : Bag) (s : Nat) (x : Bytes) (grow : Nat) : Bag :=
  { off := upd b.off s (b.used % 2 ^ 32), len := upd b.len s (x.length % 2 ^ 16), mem := setBytes b.mem b.used x,
    used := b.used + x.length, cap := max b.cap (max grow (b.used + x.length)) }

/-- `clear` on a bag that is not shared yet: suffix.rs:330-333. -/
def Bag.cleared (b : Bag) (s : Nat) : Bag := { b with off := upd b.off s none32, len := upd b.len s 0 }

/-- One access of the lock holder. -/
inductive Micro where
  | byte (i : Nat) (x : UInt8)
  | used (n : Nat)
  | off (s o : Nat)
  | len (s l : Nat)
  | klx (s v : Nat)
  /-- store a new bag in the leaf -/
  | publish (b : Bag)
  /-- `defer_retire` -/
  | retire (p : Nat)

/-- The leaf's fields and all bags.  Retirement and guards are stamped with the time `now`. -/
structure Mem where
  bag : Nat → Bag
  ptr : Option Nat
  klx : Nat → Nat
  next : Nat
  ret : Nat → Option Nat
  now : Nat

/-- Change of the bag in the leaf. -/
def Mem.onBag (L : Mem) (f : Bag → Bag) : Mem :=
  match L.ptr with
  | some p => { L with bag := upd L.bag p (f (L.bag p)) }
  | none => L

/-- Effect of one access. -/
def Micro.app : Micro → Mem → Mem
  | .byte i x, L => L.onBag fun b => { b with mem := upd b.mem i x }
  | .used n, L => L.onBag fun b => { b with used := n }
  | .off s o, L => L.onBag fun b => { b with off := upd b.off s o }
  | .len s l, L => L.onBag fun b => { b with len := upd b.len s l }
  | .klx s v, L => { L with klx := upd L.klx s v }
  | .publish b, L => { L with bag := upd L.bag L.next b, ptr := some L.next, next := L.next + 1 }
  | .retire p, L => { L with ret := upd L.ret p (some L.now), now := L.now + 1 }

/-- `copy_from_slice` / the copy of `extend_from_slice`. -/
def bytesAt (o : Nat) : Bytes → List Micro
  | [] => []
  | x :: xs => .byte o x :: bytesAt (o + 1) xs

/-- `self.slots[slot] = SlotMeta { offset, len }`, two stores in either order. -/
def metaAt (swap : Bool) (s o l : Nat) : List Micro := if swap then [.len s l, .off s o] else [.off s o, .len s l]

/-- What the lock holder does in one call: `assign_ksuf` with `try_assign_in_place` (leaf24.rs:396-441, suffix.rs:233-277),
`clear_ksuf` (leaf24.rs:452-479), `set_keylenx` (leaf24.rs:288-297). -/
def plan (L : Mem) (swap : Bool) : LOp → List Micro
  | .assign s x ccap grow =>
    match L.ptr with
    | some p =>
      let b := L.bag p
      if b.off s ≠ none32 ∧ x.length ≤ b.len s then
        bytesAt (b.off s) x ++ metaAt swap s (b.off s) (x.length % 2 ^ 16) ++ [.klx s ksufKeylenx]
      else if b.used + x.length ≤ b.cap then
        bytesAt b.used x ++ .used (b.used + x.length) :: metaAt swap s (b.used % 2 ^ 32) (x.length % 2 ^ 16) ++ [.klx s ksufKeylenx]
      else [.publish ((b.clone ccap).appended s x grow), .retire p, .klx s ksufKeylenx]
    | none => [.publish (Bag.new.appended s x grow), .klx s ksufKeylenx]
  | .clear s ccap =>
    match L.ptr with
    | some p => [.publish (((L.bag p).clone ccap).cleared s), .retire p, .klx s 0]
    | none => [.klx s 0]
  | .compact _ _ _ _ => []
  | .setKlx s v => [.klx s v]

/-- Slot a call works on. -/
def slotOf : LOp → Option Nat
  | .assign s _ _ _ => some s
  | .clear s _ => some s
  | .compact _ _ _ _ => none
  | .setKlx s _ => some s

/-- A reader of a slot's suffix: `ksuf_equals` (leaf24.rs:483-500) with `get` (suffix.rs:173-193). -/
inductive RPc where
  | idle
  /-- about to load the key length -/
  | klx (s : Nat)
  /-- about to load the pointer to the bag -/
  | ptr (s : Nat)
  /-- about to read the offset, then the length -/
  | off1 (s p : Nat)
  | len2 (s p o : Nat)
  /-- about to read the length, then the offset -/
  | len1 (s p : Nat)
  | off2 (s p l : Nat)
  /-- about to read `data.len()` for the bounds check -/
  | used (s p o l : Nat)
  /-- reading the bytes -/
  | byte (s p o l : Nat) (acc : Bytes)
  | done (s : Nat) (r : Option Bytes)
  /-- the slice is out of bounds -/
  | panic (s : Nat)
deriving DecidableEq

/-- Next access of a reader.  `lenFirst`: in which order the two fields of `SlotMeta` are read, which the source leaves open. -/
def rstep (lenFirst : Bool) (L : Mem) : RPc → RPc
  | .idle => .idle
  | .klx s => if L.klx s = ksufKeylenx then .ptr s else .done s none
  | .ptr s =>
    match L.ptr with
    | none => .done s none
    | some p => if lenFirst then .len1 s p else .off1 s p
  | .off1 s p => .len2 s p ((L.bag p).off s)
  | .len2 s p o => if o = none32 then .done s none else .used s p o ((L.bag p).len s)
  | .len1 s p => .off2 s p ((L.bag p).len s)
  | .off2 s p l => if (L.bag p).off s = none32 then .done s none else .used s p ((L.bag p).off s) l
  | .used s p o l => if o + l ≤ (L.bag p).used then .byte s p o l [] else .panic s
  | .byte s p o l acc => if acc.length < l then .byte s p o l (acc ++ [(L.bag p).mem (o + acc.length)]) else .done s (some acc)
  | .done s r => .done s r
  | .panic s => .panic s

/-- Bag that a reader holds a pointer to. -/
def RPc.bag : RPc → Option Nat
  | .off1 _ p => some p
  | .len2 _ p _ => some p
  | .len1 _ p => some p
  | .off2 _ p _ => some p
  | .used _ p _ _ => some p
  | .byte _ p _ _ _ => some p
  | _ => none

/-- State.  `ops` are the calls made so far; it is not part of the machine. -/
structure St where
  L : Mem
  todo : List Micro
  rd : Nat → RPc
  guard : Nat → Option Nat
  freed : Nat → Bool
  ops : List LOp

def St.init : St :=
  { L := ⟨fun _ => Bag.new, none, fun _ => 0, 0, fun _ => none, 0⟩, todo := [], rd := fun _ => .idle, guard := fun _ => none,
    freed := fun _ => false, ops := [] }

/-- One step. -/
inductive Step (lenFirst : Bool) : St → St → Prop
  /-- the lock holder begins a call -/
  | call (s : St) (o : LOp) (swap : Bool) (h : s.todo = []) (hl : Spec.Suffix.LLegal o) (hc : slotOf o ≠ none) :
      Step lenFirst s { s with todo := plan s.L swap o, ops := s.ops ++ [o] }
  /-- the lock holder makes its next access -/
  | write (s : St) (m : Micro) (ms : List Micro) (h : s.todo = m :: ms) : Step lenFirst s { s with L := m.app s.L, todo := ms }
  /-- a thread enters: `pin` / `guard()` -/
  | enter (s : St) (i : Nat) (h : s.guard i = none) (hr : s.rd i = .idle) :
      Step lenFirst s { s with guard := upd s.guard i (some s.L.now) }
  /-- a thread with a guard starts to read the suffix of a slot -/
  | start (s : St) (i x : Nat) (h : s.guard i ≠ none) (hx : x < 24) (hr : s.rd i = .idle ∨ ∃ y r, s.rd i = .done y r) :
      Step lenFirst s { s with rd := upd s.rd i (.klx x) }
  /-- a reader makes its next access -/
  | read (s : St) (i : Nat) : Step lenFirst s { s with rd := upd s.rd i (rstep lenFirst s.L (s.rd i)) }
  /-- a thread drops its guard -/
  | leave (s : St) (i : Nat) (hr : s.rd i = .idle ∨ ∃ y r, s.rd i = .done y r) :
      Step lenFirst s { s with rd := upd s.rd i .idle, guard := upd s.guard i none }
  /-- a retired bag is released -/
  | free (s : St) (p t : Nat) (h : s.L.ret p = some t) (hf : s.freed p = false) (hg : ∀ i u, s.guard i = some u → t < u) :
      Step lenFirst s { s with freed := upd s.freed p true }

/-- A location of plain memory. -/
inductive Loc where
  | off (p s : Nat)
  | len (p s : Nat)
  | used (p : Nat)
  | byte (p i : Nat)
deriving DecidableEq

/-- Plain location that a reader reads next. -/
def RPc.loc : RPc → Option Loc
  | .off1 s p => some (.off p s)
  | .len2 s p _ => some (.len p s)
  | .len1 s p => some (.len p s)
  | .off2 s p _ => some (.off p s)
  | .used _ p _ _ => some (.used p)
  | .byte _ p o l acc => if acc.length < l then some (.byte p (o + acc.length)) else none
  | _ => none

/-- Plain location that an access of the lock holder writes. -/
def Micro.loc (L : Mem) : Micro → Option Loc
  | .byte i _ => L.ptr.map (.byte · i)
  | .used _ => L.ptr.map .used
  | .off s _ => L.ptr.map (.off · s)
  | .len s _ => L.ptr.map (.len · s)
  | _ => none

end Verif.BagRace
