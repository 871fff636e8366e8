import Verif.Spec.Bytes
/-!
Model of `/repo/src/key.rs`.
-/
namespace Verif
open Verif.Spec (Bytes)

/-- `IKEY_SIZE`, key.rs:12. -/
def ikeySize : Nat := 8

/-- `MAX_KEY_LENGTH`, key.rs:20. -/
def maxKeyLength : Nat := 256

/-- `struct Key`, key.rs:43-68. `ikey` is a `u64` in the code; here a `Nat`, proved to be
below `2^64` for keys built by `new` / `shift` (`Key.ikey_lt`). -/
structure Key where
  data : Bytes
  ikey : Nat
  shiftCount : Nat
  suffixStart : Nat
deriving Repr, DecidableEq

namespace Key

/-- `u64::from_be_bytes` on a slice (used at key.rs:395 and 424): Horner scheme. -/
def fromBeBytes (bs : Bytes) : Nat := bs.foldl (fun acc b => acc * 256 + b.toNat) 0

/-- `read_ikey_slow`, key.rs:414-425: copy into a zeroed 8-byte array and convert. -/
def readIkeySlow (remaining : Bytes) : Nat :=
  fromBeBytes (remaining ++ List.replicate (8 - remaining.length) 0)

/-- `read_ikey`, key.rs:392-406. `data.get(offset..)` is `None` when `offset > len`;
`first_chunk::<8>()` is `Some` when at least 8 bytes remain. -/
def readIkey (data : Bytes) (offset : Nat) : Nat :=
  if offset ≤ data.length then
    let remaining := data.drop offset
    if 8 ≤ remaining.length then fromBeBytes (remaining.take 8)
    else if remaining.isEmpty then 0
    else readIkeySlow remaining
  else 0

/-- `Key::new`, key.rs:90-107, without the length assertion (that is `Key.new?`). -/
def mk' (data : Bytes) : Key :=
  { data := data, ikey := readIkey data 0, shiftCount := 0,
    suffixStart := min ikeySize data.length }

/-- `Key::new`, key.rs:90-107. `none` is the assertion failure (panic) at 91-96. -/
def new? (data : Bytes) : Option Key :=
  if data.length ≤ maxKeyLength then some (mk' data) else none

/-- `Key::from_suffix`, key.rs:137-139. -/
def fromSuffix? (suffix : Bytes) : Option Key := new? suffix

/-- Number of trailing zero bytes of a nonzero `u64`: `trailing_zeros() / 8`
(key.rs:120). Division of the bit count by 8 counts whole zero bytes. -/
def trailingZeroBytes : Nat → Nat → Nat
  | 0, _ => 0
  | fuel + 1, x => if x % 256 = 0 then trailingZeroBytes fuel (x / 256) + 1 else 0

/-- `Key::from_ikey`, key.rs:115-129. -/
def fromIkey (ikey : Nat) : Key :=
  { data := [], ikey := ikey, shiftCount := 0,
    suffixStart := if ikey = 0 then 0 else 8 - trailingZeroBytes 8 ikey }

/-- `Key::len`, key.rs:147. -/
def len (k : Key) : Nat := k.data.length

/-- `Key::current_len`, key.rs:180-182 (`saturating_sub`). -/
def currentLen (k : Key) : Nat := k.data.length - k.shiftCount * ikeySize

/-- `Key::is_empty`, key.rs:187-189. -/
def isEmpty (k : Key) : Bool := k.ikey == 0 && k.data.isEmpty

/-- `Key::is_shifted`, key.rs:194-196. -/
def isShifted (k : Key) : Bool := 0 < k.shiftCount

/-- `Key::has_suffix`, key.rs:201-203. -/
def hasSuffix (k : Key) : Bool := ikeySize < k.currentLen

/-- `Key::suffix`, key.rs:214-221. -/
def suffix (k : Key) : Bytes :=
  if k.suffixStart < k.data.length then k.data.drop k.suffixStart else []

/-- `Key::suffix_len`, key.rs:226-228. -/
def suffixLen (k : Key) : Nat := k.data.length - k.suffixStart

/-- `Key::shift`, key.rs:237-247 (the debug assertion 238 is the caller's duty). -/
def shift (k : Key) : Key :=
  let sc := k.shiftCount + 1
  let offset := sc * ikeySize
  { data := k.data, ikey := readIkey k.data offset, shiftCount := sc,
    suffixStart := min (offset + ikeySize) k.data.length }

/-- The loop of `shift_by`, key.rs:265-267. -/
def shiftTimes : Nat → Key → Key
  | 0, k => k
  | n + 1, k => shiftTimes n k.shift

/-- `Key::shift_by`, key.rs:257-268. -/
def shiftBy (bytes : Nat) (k : Key) : Key := shiftTimes (bytes / ikeySize) k

/-- `Key::unshift`, key.rs:275-285. The Rust subtraction panics in debug builds and wraps
in release when `shift_count = 0` (debug assertion 276); theorems assume it is positive. -/
def unshift (k : Key) : Key :=
  let sc := k.shiftCount - 1
  let offset := sc * ikeySize
  { data := k.data, ikey := readIkey k.data offset, shiftCount := sc,
    suffixStart := min (offset + ikeySize) k.data.length }

/-- `Key::unshift_all`, key.rs:289-295. -/
def unshiftAll (k : Key) : Key :=
  if 0 < k.shiftCount then
    { data := k.data, ikey := readIkey k.data 0, shiftCount := 0,
      suffixStart := min ikeySize k.data.length }
  else k

/-- `Key::compare`, key.rs:336-360. -/
def compare (k : Key) (otherIkey keylenx : Nat) : Ordering :=
  match Ord.compare k.ikey otherIkey with
  | .eq =>
    let selfLen := k.currentLen
    if ikeySize < selfLen then
      if keylenx ≤ ikeySize then .gt else .eq
    else Ord.compare selfLen keylenx
  | ord => ord

/-- `Key::compare_ikey`, key.rs:375-384. -/
def compareIkey (a b : Nat) : Ordering :=
  if a < b then .lt else if a > b then .gt else .eq

end Key
end Verif
