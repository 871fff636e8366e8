import Verif.Model.Internode
/-!
# Values shared by threads: who owns a pointer to a value, and when it is released

The tree stores pointers to reference-counted values in the slots of its leaves.  Lookups load such a pointer without a lock and use it later; inserts
put pointers into slots, replace them, move them to other leaves and hand them over to the collector.  Any number of threads do so at the same time;
every load, store and change of a count is a step of its own.

Simplifications.
* What threads decide is left open: a thread may make any step that is possible for it, at any time (an over-approximation of the loops of
  `get`, `get_ref` and `insert`).  Which slot belongs to which key is the subject of the other models.
* A guard of seize is represented by its contract: a pointer that is retired is released only when all guards that were active at that moment
  of the same collector have been dropped.  `i` is the name of a guard; a thread that has several guards is several of these.
* Nothing in the code compares the collector of a guard with the one of the tree (generic.rs:451, 489, 1532 take any guard), so `home` only says
  which guards are of this tree; the guards of all other trees are treated as those of one other collector.
* Addresses are not used twice, so `p` is the name of an allocation.
* Slots with pointers to layers, and empty ones, are `none`.  A new value goes to a slot that is `none`: free slots hold no value (C32).
* Memory is sequentially consistent.
* Values that are copied (`LeafValueIndex`, slot.rs:392-417) have no count; their executions are those in which nothing is cloned, as reading
  the value of `p` is possible whenever `data p` is not `none`.
-/
namespace Verif.ValueRace
open Verif.Internode (upd)

/-- The state. -/
structure St (V : Type) where
  /-- the pointer in slot `t` of leaf `x`: leaf24.rs:619-654 -/
  cell : Nat → Nat → Option Nat
  /-- who holds the lock of leaf `x`: nodeversion.rs -/
  lock : Nat → Option Nat
  /-- the guards that are active -/
  pin : List Nat
  /-- whether guard `i` was made by this tree, `guard`: generic.rs:154 -/
  home : Nat → Bool
  /-- the pointers that have been loaded from slots under guard `i`: generic.rs:563, 719 -/
  refs : Nat → List Nat
  /-- the slot, and its pointer, that `i` works at under the lock: generic.rs:1677, 2207, leaf24.rs:1312 -/
  look : Nat → Option (Nat × Nat × Nat)
  /-- a pointer made with `into_raw` that has not been stored yet: generic.rs:1683, 1893, leaf24.rs:1661 -/
  new : Nat → Option Nat
  /-- a pointer that has been taken out of its slot: generic.rs:1687, 1841, leaf24.rs:1312 -/
  old : Nat → Option Nat
  /-- the `Arc`s outside the tree: those of callers, and the arguments and answers of calls under way -/
  handle : Nat → Option Nat
  /-- what has been retired, and the guards that are waited for -/
  bin : Nat → Option (Nat × List Nat)
  /-- the reference count -/
  strong : Nat → Nat
  /-- the value, if it has not been released -/
  data : Nat → Option V
  /-- whether the address has been given to a value -/
  used : Nat → Bool
  /-- how often the value has been released -/
  drops : Nat → Nat
  /-- a count of a value that was already released has been touched -/
  bad : Bool

/-- Change one slot. -/
def put2 (f : Nat → Nat → Option Nat) (x t : Nat) (v : Option Nat) : Nat → Nat → Option Nat := upd f x (upd (f x) t v)

/-- `Arc::increment_strong_count`, `Arc::clone`: slot.rs:290, 297. -/
def St.inc {V : Type} (s : St V) (p : Nat) : St V := { s with strong := upd s.strong p (s.strong p + 1), bad := s.bad || s.strong p == 0 }

/-- An `Arc` is dropped; the value is released with the last one: slot.rs:281-286. -/
def St.dec {V : Type} (s : St V) (p : Nat) : St V :=
  { s with
    strong := upd s.strong p (s.strong p - 1)
    bad := s.bad || s.strong p == 0
    data := if s.strong p ≤ 1 then upd s.data p none else s.data
    drops := if s.strong p ≤ 1 then upd s.drops p (s.drops p + 1) else s.drops }

/-- The steps. -/
inductive Act (V : Type) where
  /-- `Arc::new`: generic.rs:1539 -/
  | make (h p : Nat) (v : V)
  /-- an `Arc` outside the tree is dropped -/
  | drop (h : Nat)
  /-- a guard is made: generic.rs:444, 1510 -/
  | pin (i : Nat)
  /-- a guard is dropped -/
  | unpin (i : Nat)
  | lock (i x : Nat)
  | unlock (i x : Nat)
  /-- `leaf_value_ptr` in a lookup, without a lock: generic.rs:563, 719 -/
  | load (i x t : Nat)
  /-- `output_from_raw` in a lookup: generic.rs:776 -/
  | clone (i p h : Nat)
  /-- `leaf_value_ptr` under the lock: generic.rs:1677 -/
  | look (i x t : Nat)
  /-- the slot is left as it is -/
  | leave (i : Nat)
  /-- `output_from_raw` for the answer of an insert: generic.rs:1681 -/
  | answer (i h : Nat)
  /-- `output_consume_to_raw`: generic.rs:1683 -/
  | consume (i h : Nat)
  /-- `output_to_raw`: generic.rs:1893, 1824 with leaf24.rs:1661 -/
  | toRaw (i h : Nat)
  /-- `try_clone_output`, for the slot in the new layer: generic.rs:2207, leaf24.rs:1595-1621, 1661 -/
  | copy (i : Nat)
  /-- `set_leaf_value_ptr` in place of a pointer: generic.rs:1687 -/
  | swap (i : Nat)
  /-- `set_leaf_value_ptr` in a slot without a value: generic.rs:1900, leaf24.rs:1662 -/
  | store (i x t : Nat)
  /-- `take_leaf_value_ptr`: generic.rs:1841, leaf24.rs:1312, 1390 -/
  | take (i : Nat)
  /-- `set_leaf_value_ptr` of a pointer that has been taken: leaf24.rs:1313, 1391 -/
  | move (i x t : Nat)
  /-- `defer_retire`: generic.rs:1695, 1844 -/
  | retire (i n : Nat)
  /-- the collector calls `cleanup_value_ptr`: slot.rs:281-286 -/
  | free (n : Nat)
  /-- the tree is dropped, and with it the value of one slot: tree.rs:233-245, leaf24.rs:1558-1575; the guards of this tree borrow it, so they are gone -/
  | clear (x t : Nat)

variable {V : Type}

/-- A step; what is not possible changes nothing. -/
def act (s : St V) : Act V → St V
  | .make h p v =>
    if s.used p = false ∧ s.handle h = none then
      { s with used := upd s.used p true, strong := upd s.strong p 1, data := upd s.data p (some v), handle := upd s.handle h (some p) }
    else s
  | .drop h => match s.handle h with
    | some p => { s.dec p with handle := upd s.handle h none }
    | none => s
  | .pin i => { s with pin := i :: s.pin }
  | .unpin i =>
    if s.look i = none ∧ s.new i = none ∧ s.old i = none then
      { s with
        pin := s.pin.filter (· != i)
        refs := upd s.refs i []
        bin := fun n => (s.bin n).map fun e => (e.1, e.2.filter (· != i)) }
    else s
  | .lock i x => if s.lock x = none then { s with lock := upd s.lock x (some i) } else s
  | .unlock i x => if s.lock x = some i ∧ (s.look i).all (·.1 != x) then { s with lock := upd s.lock x none } else s
  | .load i x t => match s.cell x t with
    | some p => if i ∈ s.pin then { s with refs := upd s.refs i (p :: s.refs i) } else s
    | none => s
  | .clone i p h => if p ∈ s.refs i ∧ s.handle h = none then { s.inc p with handle := upd s.handle h (some p) } else s
  | .look i x t => match s.cell x t with
    | some p => if s.lock x = some i then { s with look := upd s.look i (some (x, t, p)) } else s
    | none => s
  | .leave i => { s with look := upd s.look i none }
  | .answer i h => match s.look i with
    | some (_, _, p) => if s.handle h = none then { s.inc p with handle := upd s.handle h (some p) } else s
    | none => s
  | .consume i h => match s.handle h with
    | some p => if s.new i = none then { s with new := upd s.new i (some p), handle := upd s.handle h none } else s
    | none => s
  | .toRaw i h => match s.handle h with
    | some p => if s.new i = none then { s.inc p with new := upd s.new i (some p) } else s
    | none => s
  | .copy i => match s.look i with
    | some (_, _, p) => if s.new i = none then { s.inc p with new := upd s.new i (some p) } else s
    | none => s
  | .swap i => match s.look i, s.new i with
    | some (x, t, p), some q =>
      if s.old i = none then
        { s with cell := put2 s.cell x t (some q), new := upd s.new i none, old := upd s.old i (some p), look := upd s.look i none }
      else s
    | _, _ => s
  | .store i x t => match s.new i with
    | some q => if s.lock x = some i ∧ s.cell x t = none then { s with cell := put2 s.cell x t (some q), new := upd s.new i none } else s
    | none => s
  | .take i => match s.look i with
    | some (x, t, p) =>
      if s.old i = none then { s with cell := put2 s.cell x t none, old := upd s.old i (some p), look := upd s.look i none } else s
    | none => s
  | .move i x t => match s.old i with
    | some q => if s.lock x = some i ∧ s.cell x t = none then { s with cell := put2 s.cell x t (some q), old := upd s.old i none } else s
    | none => s
  | .retire i n => match s.old i with
    | some p => if s.bin n = none ∧ i ∈ s.pin then { s with bin := upd s.bin n (some (p, s.pin.filter (s.home · == s.home i))), old := upd s.old i none } else s
    | none => s
  | .free n => match s.bin n with
    | some (p, w) => if w = [] then { s.dec p with bin := upd s.bin n none } else s
    | none => s
  | .clear x t => match s.cell x t with
    | some p => if (s.pin.all fun j => !s.home j) ∧ s.lock x = none then { s.dec p with cell := put2 s.cell x t none } else s
    | none => s

end Verif.ValueRace
