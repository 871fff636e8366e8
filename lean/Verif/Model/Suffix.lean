import Verif.Spec.Bytes
/-!
# Suffix storage

Model of `/repo/src/suffix.rs` (`SuffixBag<WIDTH>`) and of the suffix methods of a leaf
(`/repo/src/leaf24.rs:350-622`).

* `u32` / `u16` casts are `% 2^32` / `% 2^16`; the `u32::MAX` sentinel is kept.
* A panic (index or slice out of range, `assert!`) is the outer `none`.
* Simplification: the growth policy of `Vec` is not fixed.  Operations that may reallocate take the new
  capacity as an argument, raised to at least the length.
* Simplification: `WIDTH` is an argument `W` of the functions that index `slots`; the slot array is a
  total function of which only indices `< W` are read.
-/
namespace Verif.Suffix
open Verif.Spec

/-- `SlotMeta`: suffix.rs:17-23. -/
structure Meta where
  offset : Nat
  len : Nat
deriving DecidableEq, Repr

/-- `SlotMeta::EMPTY`: suffix.rs:27-30. -/
def Meta.empty : Meta := ⟨2 ^ 32 - 1, 0⟩

/-- `SlotMeta::has_suffix`: suffix.rs:34-36. -/
def Meta.has (m : Meta) : Bool := m.offset != 2 ^ 32 - 1

/-- `SuffixBag`: suffix.rs:85-91; `cap` is `data.capacity()`. -/
structure Bag where
  slots : Nat → Meta
  data : Bytes
  cap : Nat

/-- `INITIAL_CAPACITY`: suffix.rs:9. -/
def initialCapacity : Nat := 128

/-- `new`: suffix.rs:101-106. -/
def Bag.new : Bag := ⟨fun _ => Meta.empty, [], initialCapacity⟩

/-- `with_capacity`: suffix.rs:111-116. -/
def Bag.withCapacity (c : Nat) : Bag := ⟨fun _ => Meta.empty, [], c⟩

/-- `used`: suffix.rs:132-134. -/
def Bag.used (b : Bag) : Nat := b.data.length

/-- `count`: suffix.rs:139-141. -/
def Bag.count (W : Nat) (b : Bag) : Nat := ((List.range W).filter fun s => (b.slots s).has).length

/-- `has_suffix`: suffix.rs:158-161. -/
def Bag.hasSuffix (W : Nat) (b : Bag) (s : Nat) : Option Bool :=
  if s < W then some (b.slots s).has else none

/-- `get`: suffix.rs:173-193. -/
def Bag.get (W : Nat) (b : Bag) (s : Nat) : Option (Option Bytes) :=
  if s < W then
    let m := b.slots s
    if m.has then
      if m.offset + m.len ≤ b.data.length then some (some ((b.data.drop m.offset).take m.len))
      else none
    else some none
  else none

/-- `get_or_empty`: suffix.rs:202-204. -/
def Bag.getOrEmpty (W : Nat) (b : Bag) (s : Nat) : Option Bytes := (b.get W s).map (·.getD [])

/-- Assignment `self.slots[slot] = m`. -/
def setSlot (f : Nat → Meta) (s : Nat) (m : Meta) : Nat → Meta := fun t => if t = s then m else f t

/-- `data[start..start+bs.len()].copy_from_slice(bs)`. -/
def overwrite (d : Bytes) (start : Nat) (bs : Bytes) : Bytes :=
  d.take start ++ bs ++ d.drop (start + bs.length)

/-- `try_assign_in_place`: suffix.rs:233-277. -/
def Bag.tryAssign (W : Nat) (b : Bag) (s : Nat) (bs : Bytes) : Option (Bag × Bool) :=
  if s < W ∧ bs.length < 2 ^ 16 then
    let m := b.slots s
    if m.has ∧ bs.length ≤ m.len then
      if m.offset + bs.length ≤ b.data.length then
        some ({ b with data := overwrite b.data m.offset bs,
                       slots := setSlot b.slots s ⟨m.offset, bs.length % 2 ^ 16⟩ }, true)
      else none
    else if b.data.length + bs.length ≤ b.cap then
      some ({ b with data := b.data ++ bs,
                     slots := setSlot b.slots s ⟨b.data.length % 2 ^ 32, bs.length % 2 ^ 16⟩ }, true)
    else some (b, false)
  else none

/-- `assign`: suffix.rs:292-315. `grow` is the capacity chosen by `Vec::extend_from_slice`. -/
def Bag.assign (W : Nat) (b : Bag) (s : Nat) (bs : Bytes) (grow : Nat) : Option Bag :=
  if s < W ∧ bs.length < 2 ^ 16 then
    some { data := b.data ++ bs,
           slots := setSlot b.slots s ⟨b.data.length % 2 ^ 32, bs.length % 2 ^ 16⟩,
           cap := max b.cap (max grow (b.data.length + bs.length)) }
  else none

/-- `clear`: suffix.rs:330-333. -/
def Bag.clear (W : Nat) (b : Bag) (s : Nat) : Option Bag :=
  if s < W then some { b with slots := setSlot b.slots s Meta.empty } else none

/-- Loop of `compact`: suffix.rs:381-409. -/
def compactLoop (W : Nat) (old : Bag) : List Nat → Bag → Option Bag
  | [], acc => some acc
  | s :: rest, acc =>
    if s < W then
      let m := old.slots s
      if m.has then
        if m.offset + m.len ≤ old.data.length then
          compactLoop W old rest
            { acc with data := acc.data ++ (old.data.drop m.offset).take m.len,
                       slots := setSlot acc.slots s ⟨acc.data.length % 2 ^ 32, m.len⟩ }
        else none
      else compactLoop W old rest acc
    else compactLoop W old rest acc

/-- `compact`: suffix.rs:356-415.  `capacity` stands for the power of two of suffix.rs:375.
Returns the reclaimed byte count too (`saturating_sub`). -/
def Bag.compact (W : Nat) (b : Bag) (active : List Nat) (capacity : Nat) : Option (Bag × Nat) :=
  (compactLoop W b active (Bag.withCapacity capacity)).map fun n =>
    ({ n with cap := max capacity n.data.length }, b.data.length - n.data.length)

/-- `compact_with_permuter`: suffix.rs:430-440; `order` is `(0..perm.size()).map(|i| perm.get(i))`. -/
def Bag.compactWith (W : Nat) (b : Bag) (order : List Nat) (excl : Option Nat) (capacity : Nat) :
    Option (Bag × Nat) :=
  b.compact W (order.filter fun s => some s != excl) capacity

/-- `suffix_equals`: suffix.rs:454-456. -/
def Bag.suffixEquals (W : Nat) (b : Bag) (s : Nat) (bs : Bytes) : Option Bool :=
  (b.get W s).map fun o => match o with | some x => x == bs | none => false

/-- `suffix_compare`: suffix.rs:466-468. -/
def Bag.suffixCompare (W : Nat) (b : Bag) (s : Nat) (bs : Bytes) : Option (Option Ordering) :=
  (b.get W s).map fun o => o.map fun x => byteCmp x bs

/-- `clone`: suffix.rs:480-485; the clone's capacity is up to the allocator. -/
def Bag.clone (b : Bag) (capacity : Nat) : Bag := { b with cap := max capacity b.data.length }

/-! ## Operation sequences on a bag -/

/-- One call of the public interface.  `clone` stands for replacing the bag by its clone. -/
inductive Op
  | tryAssign (s : Nat) (bs : Bytes)
  | assign (s : Nat) (bs : Bytes) (grow : Nat)
  | clear (s : Nat)
  | compact (active : List Nat) (capacity : Nat)
  | clone (capacity : Nat)

/-- Run one call; the Boolean is the result of `try_assign_in_place`, `true` for the other calls. -/
def step (W : Nat) (b : Bag) : Op → Option (Bag × Bool)
  | .tryAssign s bs => b.tryAssign W s bs
  | .assign s bs g => (b.assign W s bs g).map (·, true)
  | .clear s => (b.clear W s).map (·, true)
  | .compact a c => (b.compact W a c).map fun r => (r.1, true)
  | .clone c => some (b.clone c, true)

/-- Run a sequence of calls and collect the results. -/
def run (W : Nat) (b : Bag) : List Op → Option (Bag × List Bool)
  | [] => some (b, [])
  | o :: os =>
    match step W b o with
    | none => none
    | some (b', r) => (run W b' os).map fun p => (p.1, r :: p.2)

/-! ## Suffixes of a leaf (leaf24.rs) -/

/-- `WIDTH_24`: leaf24.rs:38. -/
def W24 : Nat := 24
/-- `KSUF_KEYLENX`: leaf24.rs:32. -/
def ksufKeylenx : Nat := 64

/-- The suffix part of `LeafNode24`: leaf24.rs:69-128 (`keylenx` array and `ksuf` pointer, `none` = null). -/
structure LeafSuf where
  bag : Option Bag
  klx : Nat → Nat

/-- `new_with_root`: leaf24.rs:147-168. -/
def LeafSuf.new : LeafSuf := ⟨none, fun _ => 0⟩

/-- `ksuf`: leaf24.rs:364-378. -/
def LeafSuf.ksuf (l : LeafSuf) (s : Nat) : Option (Option Bytes) :=
  if l.klx s = ksufKeylenx then
    match l.bag with
    | none => some none
    | some b => b.get W24 s
  else some none

/-- `ksuf_equals`: leaf24.rs:483-500. -/
def LeafSuf.ksufEquals (l : LeafSuf) (s : Nat) (bs : Bytes) : Option Bool :=
  if l.klx s = ksufKeylenx then
    match l.bag with
    | none => some false
    | some b => b.suffixEquals W24 s bs
  else some false

/-- Store to `keylenx[slot]`. -/
def LeafSuf.setKlx (l : LeafSuf) (s v : Nat) : LeafSuf :=
  { l with klx := fun t => if t = s then v else l.klx t }

/-- `assign_ksuf`: leaf24.rs:396-441.  `ccap`, `grow`: capacities of the clone and of the grown vector. -/
def LeafSuf.assignKsuf (l : LeafSuf) (s : Nat) (bs : Bytes) (ccap grow : Nat) : Option LeafSuf :=
  match l.bag with
  | some b =>
    match b.tryAssign W24 s bs with
    | none => none
    | some (b', true) => some ({ l with bag := some b' }.setKlx s ksufKeylenx)
    | some (_, false) =>
      ((b.clone ccap).assign W24 s bs grow).map fun n => { l with bag := some n }.setKlx s ksufKeylenx
  | none => (Bag.new.assign W24 s bs grow).map fun n => { l with bag := some n }.setKlx s ksufKeylenx

/-- `clear_ksuf`: leaf24.rs:452-479. -/
def LeafSuf.clearKsuf (l : LeafSuf) (s : Nat) (ccap : Nat) : Option LeafSuf :=
  match l.bag with
  | none => some (l.setKlx s 0)
  | some b => ((b.clone ccap).clear W24 s).map fun n => { l with bag := some n }.setKlx s 0

/-- `compact_ksuf`: leaf24.rs:587-622; `order` is the current slot order. -/
def LeafSuf.compactKsuf (l : LeafSuf) (order : List Nat) (excl : Option Nat) (ccap cap : Nat) :
    Option LeafSuf :=
  match l.bag with
  | none => some l
  | some b => ((b.clone ccap).compactWith W24 order excl cap).map fun n => { l with bag := some n.1 }

/-- Calls on the suffix part of a leaf; `setKlx` is `set_keylenx` (leaf24.rs:288-297). -/
inductive LOp
  | assign (s : Nat) (bs : Bytes) (ccap grow : Nat)
  | clear (s : Nat) (ccap : Nat)
  | compact (order : List Nat) (excl : Option Nat) (ccap cap : Nat)
  | setKlx (s v : Nat)

/-- One call on a leaf. -/
def lstep (l : LeafSuf) : LOp → Option LeafSuf
  | .assign s bs c g => l.assignKsuf s bs c g
  | .clear s c => l.clearKsuf s c
  | .compact o e c d => l.compactKsuf o e c d
  | .setKlx s v => some (l.setKlx s v)

/-- A sequence of calls on a leaf. -/
def lrun (l : LeafSuf) : List LOp → Option LeafSuf
  | [] => some l
  | o :: os => (lstep l o).bind fun l' => lrun l' os

end Verif.Suffix
