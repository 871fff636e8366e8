/-!
# Vectorised key comparison

Model of `/repo/src/ksearch/simd.rs` and of the leaf search built on it
(`/repo/src/ksearch/simd_search.rs:55-61`).  A vector register is the list of its 64-bit lanes.  Intrinsics are modelled
from their documented meaning:

* `_mm*_cmpeq_epi64` / `_mm256_cmpgt_epi64`: all ones in lanes where the (for `cmpgt`, *signed*) comparison holds;
* `_mm*_movemask_epi8`: the most significant bit of every byte.

The pointer loops `while i + k <= len { .. i += k }` are recursions on the rest of the key list together with the running
index `i`.  Shifts `1 << i` of a `u32` use the release-mode meaning (shift amount modulo 32; a debug build panics).
CPU feature detection is not modelled: each implementation is a separate definition.
-/
namespace Verif.Simd

/-- A 64-bit key. -/
abbrev K := BitVec 64

/-- One lane of `_mm_cmpeq_epi64`. -/
def cmpeq (a t : K) : K := if a = t then BitVec.allOnes 64 else 0#64
/-- One lane of `_mm256_cmpgt_epi64` (signed). -/
def cmpgt (a t : K) : K := if t.slt a then BitVec.allOnes 64 else 0#64

/-- The eight bits `movemask_epi8` extracts from one lane. -/
def laneMask (x : K) : BitVec 32 :=
  (List.range 8).foldl (fun acc b => if x.getLsbD (8 * b + 7) then acc ||| (1#32 <<< b) else acc) 0#32

/-- `_mm_movemask_epi8` of two lanes. -/
def movemask2 (a b : K) : BitVec 32 := laneMask a ||| (laneMask b <<< 8)
/-- `_mm256_movemask_epi8` of four lanes. -/
def movemask4 (a b c d : K) : BitVec 32 :=
  laneMask a ||| (laneMask b <<< 8) ||| (laneMask c <<< 16) ||| (laneMask d <<< 24)

/-- Scalar loop from index `i`: simd.rs:87-94 (`i = 0`), and the remainder loops 156-161, 234-239. -/
def findScalarFrom (t : K) (i : Nat) : List K → Option Nat
  | [] => none
  | k :: ks => if k = t then some i else findScalarFrom t (i + 1) ks

/-- `find_exact_u64_scalar`: simd.rs:87-94. -/
def findExactScalar (keys : List K) (t : K) : Option Nat := findScalarFrom t 0 keys

/-- Loop of `find_exact_u64_sse2`: simd.rs:138-163. -/
def findSse2From (t : K) (i : Nat) : List K → Option Nat
  | a :: b :: rest =>
    let mask := movemask2 (cmpeq a t) (cmpeq b t)
    if mask ≠ 0#32 then
      if mask &&& 0xFF#32 ≠ 0#32 then some i else some (i + 1)
    else findSse2From t (i + 2) rest
  | rest => findScalarFrom t i rest

/-- `find_exact_u64_sse2`: simd.rs:126-165. -/
def findExactSse2 (keys : List K) (t : K) : Option Nat :=
  if keys.length = 0 then none else findSse2From t 0 keys

/-- Loop of `find_exact_u64_avx2`: simd.rs:210-241. -/
def findAvx2From (t : K) (i : Nat) : List K → Option Nat
  | a :: b :: c :: d :: rest =>
    let mask := movemask4 (cmpeq a t) (cmpeq b t) (cmpeq c t) (cmpeq d t)
    if mask ≠ 0#32 then
      if mask &&& 0x000000FF#32 ≠ 0#32 then some i
      else if mask &&& 0x0000FF00#32 ≠ 0#32 then some (i + 1)
      else if mask &&& 0x00FF0000#32 ≠ 0#32 then some (i + 2)
      else some (i + 3)
    else findAvx2From t (i + 4) rest
  | rest => findScalarFrom t i rest

/-- `find_exact_u64_avx2`: simd.rs:199-243. -/
def findExactAvx2 (keys : List K) (t : K) : Option Nat :=
  if keys.length = 0 then none else findAvx2From t 0 keys

/-- Loop of `count_le_u64_scalar`: simd.rs:101-107; also the remainder loop 292-297. -/
def countScalarFrom (t : K) (count : Nat) : List K → Nat
  | [] => count
  | k :: ks => countScalarFrom t (if k ≤ t then count + 1 else count) ks

/-- `count_le_u64_scalar`: simd.rs:100-108; `count_le_u64_sse2` (177-181) is the same function. -/
def countLeScalar (keys : List K) (size : Nat) (t : K) : Nat := countScalarFrom t 0 (keys.take size)

/-- Loop of `count_le_u64_avx2`: simd.rs:264-299. -/
def countAvx2From (t : K) (count : Nat) : List K → Nat
  | a :: b :: c :: d :: rest =>
    let mask := movemask4 (cmpgt a t) (cmpgt b t) (cmpgt c t) (cmpgt d t)
    let count := if mask &&& 0x000000FF#32 = 0#32 then count + 1 else count
    let count := if mask &&& 0x0000FF00#32 = 0#32 then count + 1 else count
    let count := if mask &&& 0x00FF0000#32 = 0#32 then count + 1 else count
    let count := if mask &&& 0xFF000000#32 = 0#32 then count + 1 else count
    countAvx2From t count rest
  | rest => countScalarFrom t count rest

/-- `count_le_u64_avx2`: simd.rs:253-301.  `none`: `size` exceeds the slice, so the vector loop reads out of bounds or
the remainder loop panics. -/
def countLeAvx2 (keys : List K) (size : Nat) (t : K) : Option Nat :=
  if size ≤ keys.length then some (countAvx2From t 0 (keys.take size)) else none

/-- `mask |= 1 << i` if the condition holds. -/
def setIf (c : Bool) (m : BitVec 32) (i : Nat) : BitVec 32 := if c then m ||| (1#32 <<< (i % 32)) else m

/-- Scalar loop from index `i`: simd.rs:353-357 and the remainder loops 401-406, 471-476. -/
def allScalarFrom (t : K) (mask : BitVec 32) (i : Nat) : List K → BitVec 32
  | [] => mask
  | k :: ks => allScalarFrom t (setIf (k = t) mask i) (i + 1) ks

/-- `find_all_matches_u64_scalar`: simd.rs:351-359. -/
def findAllScalar (keys : List K) (len : Nat) (t : K) : BitVec 32 :=
  allScalarFrom t 0#32 0 (keys.take (min (min len 32) keys.length))

/-- SSE2 loop and remainder: simd.rs:384-408, and 454-478 inside the AVX2 version. -/
def allSse2From (t : K) (mask : BitVec 32) (i : Nat) : List K → BitVec 32
  | a :: b :: rest =>
    let bm := movemask2 (cmpeq a t) (cmpeq b t)
    let mask := setIf (bm &&& 0xFF#32 ≠ 0#32) mask i
    let mask := setIf (bm &&& 0xFF00#32 ≠ 0#32) mask (i + 1)
    allSse2From t mask (i + 2) rest
  | rest => allScalarFrom t mask i rest

/-- `find_all_matches_u64_sse2`: simd.rs:373-410. -/
def findAllSse2 (keys : List K) (len : Nat) (t : K) : BitVec 32 :=
  if len = 0 then 0#32 else allSse2From t 0#32 0 (keys.take len)

/-- AVX2 loop, then the SSE2 loop for the rest: simd.rs:431-478. -/
def allAvx2From (t : K) (mask : BitVec 32) (i : Nat) : List K → BitVec 32
  | a :: b :: c :: d :: rest =>
    let bm := movemask4 (cmpeq a t) (cmpeq b t) (cmpeq c t) (cmpeq d t)
    let mask := setIf (bm &&& 0x000000FF#32 ≠ 0#32) mask i
    let mask := setIf (bm &&& 0x0000FF00#32 ≠ 0#32) mask (i + 1)
    let mask := setIf (bm &&& 0x00FF0000#32 ≠ 0#32) mask (i + 2)
    let mask := setIf (bm &&& 0xFF000000#32 ≠ 0#32) mask (i + 3)
    allAvx2From t mask (i + 4) rest
  | rest => allSse2From t mask i rest

/-- `find_all_matches_u64_avx2`: simd.rs:420-480. -/
def findAllAvx2 (keys : List K) (len : Nat) (t : K) : BitVec 32 :=
  if len = 0 then 0#32 else allAvx2From t 0#32 0 (keys.take len)

end Verif.Simd
