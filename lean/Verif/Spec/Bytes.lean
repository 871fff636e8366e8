/-!
Specification vocabulary for keys: byte strings, their lexicographic order and their
8-byte big-endian chunks.
-/
namespace Verif.Spec

/-- Byte strings. -/
abbrev Bytes := List UInt8

/-- Lexicographic comparison of byte strings, a proper prefix being smaller. -/
def byteCmp : Bytes → Bytes → Ordering
  | [], [] => .eq
  | [], _ :: _ => .lt
  | _ :: _, [] => .gt
  | x :: xs, y :: ys => (compare x.toNat y.toNat).then (byteCmp xs ys)

/-- The first `n` bytes of a string, padded on the right with zero bytes. -/
def padTake : Nat → Bytes → Bytes
  | 0, _ => []
  | n + 1, [] => 0 :: padTake n []
  | n + 1, x :: xs => x :: padTake n xs

/-- Big-endian value of a byte string. -/
def beNat : Bytes → Nat
  | [] => 0
  | x :: xs => x.toNat * 256 ^ xs.length + beNat xs

/-- The 8-byte chunk at the front of a byte string: big-endian, zero padded. -/
def chunk (bs : Bytes) : Nat := beNat (padTake 8 bs)

/-- Length class of the front chunk: how many bytes of the string lie in the first eight,
or 9 if there are more than eight. -/
def lenClass (bs : Bytes) : Nat := min bs.length 9

end Verif.Spec
