/-!
# Slot permutations

Model of `/repo/src/permuter24.rs` (`Permuter24`, a `u128` with 5 bits per slot,
24 slots) and `/repo/src/permuter.rs` (`Permuter<WIDTH>`, a `u64` with 4 bits per
slot, `WIDTH ≤ 15` slots).  Both files contain the same bit formulas for every
operation, so the operations are written once over three parameters:

* `N` word size in bits (128 / 64),
* `B` bits per field (5 / 4),
* `W` number of slots (24 / `WIDTH`).

The word is a `BitVec N`, i.e. Rust's wrapping arithmetic.  Simplification: the
`debug_assert!`s are not part of the model; they appear as hypotheses of the
theorems.  Overflow checks of debug builds are likewise not modelled; the
theorems show that the additions and subtractions involved do not carry out of the
size field.
-/
namespace Verif.Perm

/-- `(1 << k) - 1`, the mask literal used throughout permuter24.rs and permuter.rs. -/
def lowMask (N k : Nat) : BitVec N := (1#N <<< k) - 1#N

/-- `SLOT_MASK` / `SIZE_MASK`: permuter24.rs:39-42 (0x1F), permuter.rs:25 and literals (0xF). -/
def fieldMask (N B : Nat) : BitVec N := lowMask N B

/-- Bit offset of position `i`: `i * SLOT_BITS + SIZE_BITS`
(permuter24.rs:199; permuter.rs:242 `(i * 4) + 4`, elsewhere `(i + 1) * 4`). -/
def shiftOf (B i : Nat) : Nat := i * B + B

/-- `size`: permuter24.rs:186-188, permuter.rs:229-231. -/
def size {N : Nat} (B : Nat) (v : BitVec N) : Nat := (v &&& fieldMask N B).toNat

/-- `get`: permuter24.rs:197-200, permuter.rs:239-243. -/
def get {N : Nat} (B : Nat) (v : BitVec N) (i : Nat) : Nat :=
  ((v >>> shiftOf B i) &&& fieldMask N B).toNat

/-- `back`: permuter24.rs:207-209, permuter.rs:250-252. -/
def back {N : Nat} (B W : Nat) (v : BitVec N) : Nat := get B v (W - 1)

/-- `back_at_offset`: permuter24.rs:220-226, permuter.rs:264-270. -/
def backAtOffset {N : Nat} (B W : Nat) (v : BitVec N) (offset : Nat) : Nat :=
  get B v (W - 1 - offset)

/-- `set_size`: permuter24.rs:243-246, permuter.rs:296-300. -/
def setSize {N : Nat} (B : Nat) (v : BitVec N) (n : Nat) : BitVec N :=
  (v &&& ~~~ fieldMask N B) ||| BitVec.ofNat N n

/-- `set`: permuter24.rs:250-256, permuter.rs:313-320. -/
def set {N : Nat} (B : Nat) (v : BitVec N) (i slot : Nat) : BitVec N :=
  (v &&& ~~~ (fieldMask N B <<< shiftOf B i)) ||| (BitVec.ofNat N slot <<< shiftOf B i)

/-- `exchange`: permuter24.rs:422-437, permuter.rs:564-583 (XOR swap). -/
def exchange {N : Nat} (B : Nat) (v : BitVec N) (i j : Nat) : BitVec N :=
  if i = j then v
  else
    let diff := ((v >>> shiftOf B i) ^^^ (v >>> shiftOf B j)) &&& fieldMask N B
    v ^^^ ((diff <<< shiftOf B i) ||| (diff <<< shiftOf B j))

/-- `swap_free_slots`: permuter24.rs:260-275, permuter.rs:336-359. Same XOR swap as `exchange`,
restricted by `debug_assert!` to positions in the free region. -/
def swapFreeSlots {N : Nat} (B : Nat) (v : BitVec N) (i j : Nat) : BitVec N :=
  if i = j then v
  else
    let diff := ((v >>> shiftOf B i) ^^^ (v >>> shiftOf B j)) &&& fieldMask N B
    v ^^^ ((diff <<< shiftOf B i) ||| (diff <<< shiftOf B j))

/-- `insert_from_back_immutable` (and the word written by `insert_from_back`):
permuter24.rs:299-318, 325-343; permuter.rs:375-402, 428-449.
Returns the new word and the slot. -/
def insertFromBack {N : Nat} (B W : Nat) (v : BitVec N) (i : Nat) : BitVec N × Nat :=
  let slot := back B W v
  let s := shiftOf B i
  let low := lowMask N s
  (((v + 1#N) &&& low) ||| (BitVec.ofNat N slot <<< s)
      ||| ((v <<< B) &&& ~~~ (low ||| (fieldMask N B <<< s))), slot)

/-- Width mask: permuter24.rs:366 `(1u128 << 125) - 1`; permuter.rs:477-483. -/
def widthMask (N B W : Nat) : BitVec N :=
  if (W + 1) * B ≥ N then BitVec.allOnes N else lowMask N ((W + 1) * B)

/-- `remove_to_back`: permuter24.rs:357-377, permuter.rs:467-499. -/
def removeToBack {N : Nat} (B W : Nat) (v : BitVec N) (i : Nat) : BitVec N :=
  let mask := ~~~ lowMask N (shiftOf B i)
  let x := v &&& widthMask N B W
  ((x - 1#N) &&& ~~~ mask) ||| ((x >>> B) &&& mask) ||| ((x &&& mask) <<< ((W - 1 - i) * B))

/-- `remove`: permuter24.rs:387-412, permuter.rs:518-548. -/
def remove {N : Nat} (B : Nat) (v : BitVec N) (i : Nat) : BitVec N :=
  let sz := size B v
  if i + 1 = sz then v - 1#N
  else
    let rot := (sz - i - 1) * B
    let rotMask := (((1#N <<< rot) <<< B) - 1#N) <<< shiftOf B i
    ((v - 1#N) &&& ~~~ rotMask) ||| (((v &&& rotMask) >>> B) &&& rotMask)
      ||| (((v &&& rotMask) <<< rot) &&& rotMask)

/-- `rotate`: permuter24.rs:441-461, permuter.rs:600-634. -/
def rotate {N : Nat} (B W : Nat) (v : BitVec N) (i j : Nat) : BitVec N :=
  if i = j ∨ i = W then v
  else
    let mask := lowMask N (shiftOf B i)
    let x := v &&& widthMask N B W
    (x &&& mask) ||| ((x >>> ((j - i) * B)) &&& ~~~ mask)
      ||| ((x &&& ~~~ mask) <<< ((W - j) * B))

/-- The accumulation loop `value |= slot(i) << (i * SLOT_BITS + SIZE_BITS)` over positions
`a, a+1, .., a+n-1`: permuter24.rs:93-102, 106-113, 149-158; permuter.rs:47-57, 73-83, 215-221. -/
def fill (N B : Nat) (slotAt : Nat → Nat) (acc : BitVec N) (a : Nat) : Nat → BitVec N
  | 0 => acc
  | n + 1 => fill N B slotAt (acc ||| (BitVec.ofNat N (slotAt a) <<< shiftOf B a)) (a + 1) n

/-- `INITIAL` / `compute_initial_value`: permuter24.rs:92-102, permuter.rs:44-58. -/
def initial (N B W : Nat) : BitVec N := fill N B (fun i => W - 1 - i) 0#N 0 W

/-- `SORTED` / `compute_sorted_value`: permuter24.rs:105-113, permuter.rs:71-83. -/
def sorted (N B W : Nat) : BitVec N := fill N B (fun i => i) 0#N 0 W

/-- `Permuter24::make_sorted`: permuter24.rs:136-161. -/
def makeSorted24 (n : Nat) : BitVec 128 :=
  if n = 24 then sorted 128 5 24 ||| BitVec.ofNat 128 24
  else
    let value := fill 128 5 (fun i => i) (BitVec.ofNat 128 n) 0 n
    fill 128 5 (fun pos => 23 - (pos - n)) value n (24 - n)

/-- `Permuter<WIDTH>::make_sorted`: permuter.rs:181-224. -/
def makeSorted64 (W n : Nat) : BitVec 64 :=
  if n = W then sorted 64 4 W ||| BitVec.ofNat 64 W
  else
    let sortedMask := lowMask 64 (n * 4) <<< 4
    let value := BitVec.ofNat 64 n ||| (sorted 64 4 W &&& sortedMask)
    fill 64 4 (fun pos => W - 1 - (pos - n)) value n (W - n)

end Verif.Perm
