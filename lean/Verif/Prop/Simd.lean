import Verif.Model.Simd
set_option linter.unusedSimpArgs false
set_option linter.unusedVariables false
/-!
# C24: vectorised search equals scalar search
-/
namespace Verif.Simd

theorem laneMask_cases (c : Bool) :
    laneMask (if c then BitVec.allOnes 64 else 0#64) = if c then 0xFF#32 else 0#32 := by
  cases c <;> decide

theorem laneMask_cmpeq (a t : K) : laneMask (cmpeq a t) = if decide (a = t) then 0xFF#32 else 0#32 := by
  rw [← laneMask_cases]; simp [cmpeq]
theorem laneMask_cmpgt (a t : K) : laneMask (cmpgt a t) = if t.slt a then 0xFF#32 else 0#32 := by
  rw [← laneMask_cases]; rfl

/-- Masks of Boolean lanes. -/
def bm4 (a b c d : Bool) : BitVec 32 :=
  (if a then 0xFF#32 else 0#32) ||| ((if b then 0xFF#32 else 0#32) <<< 8) |||
  ((if c then 0xFF#32 else 0#32) <<< 16) ||| ((if d then 0xFF#32 else 0#32) <<< 24)
def bm2 (a b : Bool) : BitVec 32 := (if a then 0xFF#32 else 0#32) ||| ((if b then 0xFF#32 else 0#32) <<< 8)

theorem movemask4_eq (a b c d t : K) : movemask4 (cmpeq a t) (cmpeq b t) (cmpeq c t) (cmpeq d t) =
    bm4 (decide (a = t)) (decide (b = t)) (decide (c = t)) (decide (d = t)) := by
  simp only [movemask4, laneMask_cmpeq, bm4]
theorem movemask4_gt (a b c d t : K) : movemask4 (cmpgt a t) (cmpgt b t) (cmpgt c t) (cmpgt d t) =
    bm4 (t.slt a) (t.slt b) (t.slt c) (t.slt d) := by
  simp only [movemask4, laneMask_cmpgt, bm4]
theorem movemask2_eq (a b t : K) : movemask2 (cmpeq a t) (cmpeq b t) =
    bm2 (decide (a = t)) (decide (b = t)) := by
  simp only [movemask2, laneMask_cmpeq, bm2]

theorem bm4_lanes : ∀ a b c d : Bool,
    (bm4 a b c d &&& 0x000000FF#32 = 0#32 ↔ a = false) ∧ (bm4 a b c d &&& 0x0000FF00#32 = 0#32 ↔ b = false) ∧
    (bm4 a b c d &&& 0x00FF0000#32 = 0#32 ↔ c = false) ∧ (bm4 a b c d &&& 0xFF000000#32 = 0#32 ↔ d = false) ∧
    (bm4 a b c d = 0#32 ↔ (a || b || c || d) = false) := by decide
theorem bm2_lanes : ∀ a b : Bool,
    (bm2 a b &&& 0xFF#32 = 0#32 ↔ a = false) ∧ (bm2 a b &&& 0xFF00#32 = 0#32 ↔ b = false) ∧
    (bm2 a b = 0#32 ↔ (a || b) = false) := by decide

theorem findSse2From_eq (t : K) (i : Nat) (ks : List K) : findSse2From t i ks = findScalarFrom t i ks := by
  fun_induction findSse2From t i ks with
  | case1 i a b rest mask h1 h2 =>
    simp only [mask, movemask2_eq, ne_eq, bm2_lanes] at h1 h2
    simp at h2
    simp [findScalarFrom, h2]
  | case2 i a b rest mask h1 h2 =>
    simp only [mask, movemask2_eq, ne_eq, bm2_lanes] at h1 h2
    simp at h1 h2
    have : b = t := h1 h2
    simp [findScalarFrom, h2, this]
  | case3 i a b rest mask h1 ih =>
    simp only [mask, movemask2_eq, ne_eq, bm2_lanes] at h1
    simp at h1
    simp [findScalarFrom, h1.1, h1.2, ih]
  | case4 => rfl

theorem findAvx2From_eq (t : K) (i : Nat) (ks : List K) : findAvx2From t i ks = findScalarFrom t i ks := by
  fun_induction findAvx2From t i ks with
  | case1 i a b c d rest mask h1 h2 =>
    simp only [mask, movemask4_eq, ne_eq, bm4_lanes] at h1 h2
    simp at h2
    simp [findScalarFrom, h2]
  | case2 i a b c d rest mask h1 h2 h3 =>
    simp only [mask, movemask4_eq, ne_eq, bm4_lanes] at h1 h2 h3
    simp at h2 h3
    simp [findScalarFrom, h2, h3]
  | case3 i a b c d rest mask h1 h2 h3 h4 =>
    simp only [mask, movemask4_eq, ne_eq, bm4_lanes] at h1 h2 h3 h4
    simp at h2 h3 h4
    simp [findScalarFrom, h2, h3, h4]
  | case4 i a b c d rest mask h1 h2 h3 h4 =>
    simp only [mask, movemask4_eq, ne_eq, bm4_lanes] at h1 h2 h3 h4
    simp [-not_and] at h1 h2 h3 h4
    have : d = t := by grind
    simp [findScalarFrom, h2, h3, h4, this]
  | case5 i a b c d rest mask h1 ih =>
    simp only [mask, movemask4_eq, ne_eq, bm4_lanes] at h1
    simp at h1
    simp [findScalarFrom, h1, ih]
  | case6 => rfl

theorem findScalarFrom_spec (t : K) (i : Nat) (ks : List K) :
    (∀ r, findScalarFrom t i ks = some r ↔
      ∃ j, r = i + j ∧ ks[j]? = some t ∧ ∀ j', j' < j → ks[j']? ≠ some t) ∧
    (findScalarFrom t i ks = none ↔ t ∉ ks) := by
  induction ks generalizing i with
  | nil => simp [findScalarFrom]
  | cons k ks ih =>
    unfold findScalarFrom
    by_cases h : k = t
    · subst h
      simp only [if_true, Option.some.injEq, List.mem_cons, true_or, not_true]
      refine ⟨fun r => ⟨fun h => ⟨0, by omega, by simp, by omega⟩, ?_⟩, by simp⟩
      rintro ⟨j, rfl, h1, h2⟩
      cases j with
      | zero => rfl
      | succ j => exact absurd (h2 0 (by omega)) (by simp)
    · rw [if_neg h]
      refine ⟨fun r => ?_, ?_⟩
      · rw [(ih (i + 1)).1 r]
        constructor
        · rintro ⟨j, rfl, h1, h2⟩
          refine ⟨j + 1, by omega, by simpa using h1, ?_⟩
          intro j' hj'
          cases j' with
          | zero => simpa using h
          | succ j' => simpa using h2 j' (by omega)
        · rintro ⟨j, rfl, h1, h2⟩
          cases j with
          | zero => simp at h1; exact absurd h1 h
          | succ j => exact ⟨j, by omega, by simpa using h1, fun j' hj' => by simpa using h2 (j' + 1) (by omega)⟩
      · rw [(ih (i + 1)).2]; simp [Ne.symm h]

/-- **C24.** All three versions of `find_exact` agree, and return the first index holding the target. -/
theorem C24_find_exact (keys : List K) (t : K) :
    findExactSse2 keys t = findExactScalar keys t ∧ findExactAvx2 keys t = findExactScalar keys t ∧
    (∀ r, findExactScalar keys t = some r ↔ keys[r]? = some t ∧ ∀ j, j < r → keys[j]? ≠ some t) ∧
    (findExactScalar keys t = none ↔ t ∉ keys) := by
  refine ⟨?_, ?_, ?_, (findScalarFrom_spec t 0 keys).2⟩
  · unfold findExactSse2
    split
    · rename_i h; rw [List.length_eq_zero_iff.1 h]; rfl
    · exact findSse2From_eq t 0 keys
  · unfold findExactAvx2
    split
    · rename_i h; rw [List.length_eq_zero_iff.1 h]; rfl
    · exact findAvx2From_eq t 0 keys
  · intro r
    unfold findExactScalar
    rw [(findScalarFrom_spec t 0 keys).1 r]
    constructor
    · rintro ⟨j, rfl, h⟩; simpa using h
    · intro h; exact ⟨r, by simp, h⟩

/-! ### find_all_matches -/

theorem allSse2From_eq (t : K) (m : BitVec 32) (i : Nat) (ks : List K) :
    allSse2From t m i ks = allScalarFrom t m i ks := by
  fun_induction allSse2From t m i ks with
  | case1 m i a b rest bm m1 m2 ih =>
    rw [ih]
    simp only [m2, m1, bm, movemask2_eq, ne_eq, bm2_lanes, allScalarFrom]
    simp
  | case2 => rfl

theorem allAvx2From_eq (t : K) (m : BitVec 32) (i : Nat) (ks : List K) :
    allAvx2From t m i ks = allScalarFrom t m i ks := by
  fun_induction allAvx2From t m i ks with
  | case1 m i a b c d rest bm m1 m2 m3 m4 ih =>
    rw [ih]
    simp only [m4, m3, m2, m1, bm, movemask4_eq, ne_eq, bm4_lanes, allScalarFrom]
    simp
  | case2 => exact allSse2From_eq ..

theorem allScalarFrom_bit (t : K) (m : BitVec 32) (i : Nat) (ks : List K) (h : i + ks.length ≤ 32) (b : Nat)
    (hb : b < 32) : (allScalarFrom t m i ks).getLsbD b = (m.getLsbD b || (decide (i ≤ b) && decide (ks[b - i]? = some t))) := by
  induction ks generalizing m i with
  | nil => simp [allScalarFrom]
  | cons k ks ih =>
    simp only [List.length_cons] at h
    unfold allScalarFrom
    rw [ih _ (i + 1) (by omega)]
    have hi : i % 32 = i := Nat.mod_eq_of_lt (by omega)
    have h1 : (setIf (decide (k = t)) m i).getLsbD b = (m.getLsbD b || (decide (b = i) && decide (k = t))) := by
      unfold setIf
      by_cases e : k = t
      · simp only [e, decide_true, if_true, BitVec.getLsbD_or, hi, BitVec.getLsbD_shiftLeft, BitVec.getLsbD_one, hb]
        by_cases e2 : b = i
        · subst e2; simp
        · by_cases e3 : b < i
          · simp [e2, e3]
          · have : b - i ≠ 0 := by omega
            simp [e2, e3, this]
      · simp [e]
    rw [h1]
    by_cases e2 : b = i
    · subst e2
      have : ¬ b + 1 ≤ b := by omega
      simp [this]
    · by_cases e3 : i + 1 ≤ b
      · have : b - i = (b - (i + 1)) + 1 := by omega
        rw [this]
        simp [e2, e3, show i ≤ b by omega]
      · have : ¬ i ≤ b := by omega
        simp [e2, e3, this]

/-- **C24.** For up to 32 keys (the documented limit of the bit mask) all three versions of `find_all_matches` agree and
bit `b` of the result says whether key `b` is among the first `len` and equals the target. -/
theorem C24_find_all_matches (keys : List K) (len : Nat) (t : K) (h : min len keys.length ≤ 32) :
    findAllSse2 keys len t = findAllScalar keys len t ∧ findAllAvx2 keys len t = findAllScalar keys len t ∧
    ∀ b, b < 32 → (findAllScalar keys len t).getLsbD b = (decide (b < len) && decide (keys[b]? = some t)) := by
  have e : keys.take (min (min len 32) keys.length) = keys.take len := by
    rcases Nat.le_total len keys.length with h1 | h1
    · congr 1; omega
    · rw [List.take_of_length_le (by omega), List.take_of_length_le h1]
  refine ⟨?_, ?_, ?_⟩
  · unfold findAllSse2 findAllScalar
    rw [e]
    split
    · rename_i h0; simp [h0, allScalarFrom]
    · exact allSse2From_eq ..
  · unfold findAllAvx2 findAllScalar
    rw [e]
    split
    · rename_i h0; simp [h0, allScalarFrom]
    · exact allAvx2From_eq ..
  · intro b hb
    unfold findAllScalar
    rw [e, allScalarFrom_bit t _ _ _ (by simp; omega) b hb]
    simp only [List.getElem?_take, Nat.sub_zero, Nat.zero_le, decide_true, Bool.true_and, BitVec.getLsbD_zero, Bool.false_or]
    by_cases hl : b < len <;> simp [hl]

/-- **C24**, leaf search (simd_search.rs:55-61): with the 24 chunks of a leaf, bit `b` is set exactly for the slots whose
chunk is the target, whichever implementation the CPU selects. -/
theorem C24_leaf_matches (ikeys : List K) (h : ikeys.length = 24) (t : K) (b : Nat) (hb : b < 32) :
    (findAllAvx2 ikeys 24 t).getLsbD b = decide (ikeys[b]? = some t) ∧
    (findAllSse2 ikeys 24 t).getLsbD b = decide (ikeys[b]? = some t) ∧
    (findAllScalar ikeys 24 t).getLsbD b = decide (ikeys[b]? = some t) := by
  obtain ⟨h1, h2, h3⟩ := C24_find_all_matches ikeys 24 t (by omega)
  rw [h1, h2, h3 b hb]
  have : (decide (b < 24) && decide (ikeys[b]? = some t)) = decide (ikeys[b]? = some t) := by
    by_cases hl : b < 24
    · simp [hl]
    · simp [hl, List.getElem?_eq_none (show ikeys.length ≤ b by omega)]
  simp [this]

/-- Beyond the documented 32 keys the versions differ: with 33 keys of which only the last matches, the scalar version
reports nothing and the vector versions report key 0 (release build). -/
theorem C24_find_all_beyond_32 :
    findAllScalar (List.replicate 32 0#64 ++ [1#64]) 33 1#64 = 0#32 ∧
    findAllSse2 (List.replicate 32 0#64 ++ [1#64]) 33 1#64 = 1#32 ∧
    findAllAvx2 (List.replicate 32 0#64 ++ [1#64]) 33 1#64 = 1#32 := by decide +kernel

/-! ### count_le -/

theorem countScalarFrom_eq (t : K) (n : Nat) (ks : List K) :
    countScalarFrom t n ks = n + (ks.filter fun k => decide (k ≤ t)).length := by
  induction ks generalizing n with
  | nil => rfl
  | cons k ks ih =>
    unfold countScalarFrom
    rw [ih]
    by_cases h : k ≤ t
    · rw [if_pos h, List.filter_cons_of_pos (by simpa using h), List.length_cons]; omega
    · rw [if_neg h, List.filter_cons_of_neg (by simpa using h)]

/-- What the AVX2 version computes: full groups of four are compared as *signed* numbers, the rest unsigned. -/
theorem countAvx2From_eq (t : K) (n : Nat) (ks : List K) :
    countAvx2From t n ks = n + ((ks.take (ks.length / 4 * 4)).filter fun k => !(t.slt k)).length +
      ((ks.drop (ks.length / 4 * 4)).filter fun k => decide (k ≤ t)).length := by
  fun_induction countAvx2From t n ks with
  | case1 n a b c d rest mask n1 n2 n3 n4 ih =>
    rw [ih]
    have e : (a :: b :: c :: d :: rest).length / 4 * 4 = rest.length / 4 * 4 + 4 := by simp; omega
    rw [e]
    simp only [List.take_succ_cons, List.drop_succ_cons, List.filter_cons]
    simp only [n4, n3, n2, n1, mask, movemask4_gt, bm4_lanes]
    cases t.slt a <;> cases t.slt b <;> cases t.slt c <;> cases t.slt d <;> simp <;> omega
  | case2 n rest h =>
    have : rest.length / 4 * 4 = 0 := by
      match rest, h with
      | [], _ => simp
      | [_], _ => simp
      | [_, _], _ => simp
      | [_, _, _], _ => simp
      | a :: b :: c :: d :: r, h => exact absurd rfl (h a b c d r)
    rw [this, countScalarFrom_eq]
    simp

theorem slt_eq_of_msb {a b : K} (h : a.msb = b.msb) : a.slt b = decide (a < b) := by
  rw [BitVec.slt_eq_ult, h]
  simp [BitVec.ult, BitVec.lt_def]

/-- **C24**, `count_le`, what holds: the scalar version counts the keys at most the target, and the AVX2 version gives
the same count when the target and all keys have the same top bit (for instance all keys below `2^63`).
Missing from the full claim: keys on both sides of `2^63`, where it is false (`C24_count_le_signed_bug`). -/
theorem C24_count_le_partial (keys : List K) (size : Nat) (t : K) :
    countLeScalar keys size t = ((keys.take size).filter fun k => decide (k ≤ t)).length ∧
    (size ≤ keys.length → (∀ k ∈ keys.take size, k.msb = t.msb) →
      countLeAvx2 keys size t = some (countLeScalar keys size t)) := by
  refine ⟨by simp [countLeScalar, countScalarFrom_eq], fun hs hm => ?_⟩
  unfold countLeAvx2 countLeScalar
  rw [if_pos hs, countAvx2From_eq, countScalarFrom_eq]
  congr 1
  have : ((keys.take size).take ((keys.take size).length / 4 * 4)).filter (fun k => !(t.slt k)) =
      ((keys.take size).take ((keys.take size).length / 4 * 4)).filter (fun k => decide (k ≤ t)) := by
    apply List.filter_congr
    intro k hk
    have hk' := hm k (List.mem_of_mem_take hk)
    rw [slt_eq_of_msb hk'.symm]
    simp [BitVec.lt_def, BitVec.le_def]
    by_cases h : t.toNat < k.toNat <;> simp [h] <;> omega
  rw [this, Nat.add_assoc, ← List.length_append, ← List.filter_append, List.take_append_drop]

/-- **C24** (violated for `count_le`). The AVX2 version compares as signed: with target `1` and a node whose four keys
are all `2^63`, it counts four keys as at most the target, while the scalar version counts none. -/
theorem C24_count_le_signed_bug :
    countLeAvx2 (List.replicate 4 (0x8000000000000000#64)) 4 1#64 = some 4 ∧
    countLeScalar (List.replicate 4 (0x8000000000000000#64)) 4 1#64 = 0 := by decide +kernel

example : ∀ k ∈ ([3#64, 5#64, 9#64, 12#64, 70#64] : List K).take 5, k.msb = (10#64).msb := by simp [BitVec.msb_eq_decide]
example : countLeAvx2 [3#64, 5#64, 9#64, 12#64, 70#64] 5 10#64 = some 3 := by decide +kernel

end Verif.Simd
