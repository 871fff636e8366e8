import Verif.Model.Permuter
import Verif.Spec.Permuter

/-! # Bit-field lemmas for the slot permutation words -/
set_option linter.unusedSimpArgs false
set_option linter.unusedVariables false
namespace Verif.Perm

/-- Parameter conditions met by `Permuter24` (128, 5, 24) and `Permuter<W>` (64, 4, W). -/
structure Params (N B W : Nat) : Prop where
  hB : 2 ≤ B
  hW : 1 ≤ W
  hN : (W + 1) * B ≤ N
  hS : W < 2 ^ B

theorem params24 : Params 128 5 24 := by constructor <;> decide
theorem params64 {W : Nat} (h1 : 1 ≤ W) (h15 : W ≤ 15) : Params 64 4 W := by
  constructor <;> omega

section
variable {N B W : Nat}

theorem getLsbD_lowMask (N k j : Nat) (hk : k ≤ N) :
    (lowMask N k).getLsbD j = decide (j < k) := by
  unfold lowMask
  rcases Nat.eq_zero_or_pos N with h0 | hN
  · subst h0
    have : k = 0 := by omega
    subst this
    simp [BitVec.getLsbD_of_ge]
  · by_cases hj : j < N
    · have h1 : ((1#N <<< k) - 1#N).toNat = 2 ^ k - 1 := by
        have h2N : 1 < 2 ^ N := Nat.one_lt_two_pow (by omega)
        rcases Nat.lt_or_ge k N with hkN | hkN
        · have hlt : 2 ^ k < 2 ^ N := Nat.pow_lt_pow_right (by omega) hkN
          have hp := Nat.two_pow_pos k
          simp only [BitVec.toNat_sub, BitVec.toNat_shiftLeft, BitVec.toNat_ofNat,
            Nat.one_shiftLeft, Nat.mod_eq_of_lt h2N, Nat.mod_eq_of_lt hlt]
          rw [show 2 ^ N - 1 + 2 ^ k = (2 ^ k - 1) + 2 ^ N by omega, Nat.add_mod_right,
            Nat.mod_eq_of_lt (by omega)]
        · have : k = N := by omega
          subst this
          simp only [BitVec.toNat_sub, BitVec.toNat_shiftLeft, BitVec.toNat_ofNat,
            Nat.one_shiftLeft, Nat.mod_eq_of_lt h2N, Nat.mod_self]
          rw [Nat.add_zero, Nat.mod_eq_of_lt (by omega)]
      rw [← BitVec.testBit_toNat, h1, Nat.testBit_two_pow_sub_one]
    · rw [BitVec.getLsbD_of_ge _ _ (by omega)]
      simp; omega

theorem testBit_of_div {a b j k : Nat} (h : a / 2 ^ k = b / 2 ^ k) (hj : k ≤ j) :
    a.testBit j = b.testBit j := by
  obtain ⟨m, rfl⟩ := Nat.exists_eq_add_of_le hj
  rw [Nat.add_comm k m, ← Nat.testBit_div_two_pow, ← Nat.testBit_div_two_pow, h]

theorem getLsbD_ext_div {v w : BitVec N} {k j : Nat} (h : v.toNat / 2 ^ k = w.toNat / 2 ^ k)
    (hj : k ≤ j) : v.getLsbD j = w.getLsbD j := by
  rw [← BitVec.testBit_toNat, ← BitVec.testBit_toNat]; exact testBit_of_div h hj

theorem size_eq (hBN : B ≤ N) (v : BitVec N) : size B v = v.toNat % 2 ^ B := by
  unfold size fieldMask
  apply Nat.eq_of_testBit_eq
  intro j
  rw [BitVec.testBit_toNat, BitVec.getLsbD_and, getLsbD_lowMask _ _ _ hBN, Nat.testBit_mod_two_pow,
    BitVec.testBit_toNat, Bool.and_comm]

theorem testBit_get (hBN : B ≤ N) (v : BitVec N) (i b : Nat) :
    (get B v i).testBit b = (decide (b < B) && v.getLsbD (shiftOf B i + b)) := by
  unfold get fieldMask
  rw [BitVec.testBit_toNat, BitVec.getLsbD_and, getLsbD_lowMask _ _ _ hBN,
    BitVec.getLsbD_ushiftRight, Bool.and_comm]

theorem get_lt (hBN : B ≤ N) (v : BitVec N) (i : Nat) : get B v i < 2 ^ B := by
  apply Nat.lt_pow_two_of_testBit
  intro b hb
  rw [testBit_get hBN]
  simp; omega

theorem get_congr (hBN : B ≤ N) {v w : BitVec N} {i j : Nat}
    (h : ∀ b, b < B → v.getLsbD (shiftOf B i + b) = w.getLsbD (shiftOf B j + b)) :
    get B v i = get B w j := by
  apply Nat.eq_of_testBit_eq
  intro b
  rw [testBit_get hBN, testBit_get hBN]
  by_cases hb : b < B
  · rw [h b hb]
  · simp [hb]

theorem getLsbD_ofNat_get (hBN : B ≤ N) (v : BitVec N) (i b : Nat) :
    (BitVec.ofNat N (get B v i)).getLsbD b = (decide (b < B) && v.getLsbD (shiftOf B i + b)) := by
  rw [BitVec.getLsbD_ofNat, testBit_get hBN]
  by_cases hb : b < B
  · simp [hb]; intro; omega
  · simp [hb]

theorem mul_field_le {B i j : Nat} (h : i < j) : i * B + B ≤ j * B := by
  have := Nat.mul_le_mul_right B (Nat.succ_le_of_lt h)
  rw [Nat.succ_mul] at this; exact this

theorem shift_lt (p : Params N B W) {i : Nat} (hi : i < W) : shiftOf B i + B ≤ N := by
  have h1 := mul_field_le (B := B) hi
  have h2 := p.hN
  rw [Nat.succ_mul] at h2
  unfold shiftOf
  omega

theorem Params.hBN (p : Params N B W) : B ≤ N := by
  have := shift_lt p (i := 0) p.hW
  omega

/-- Adding one below the top of the size field leaves all higher bits alone. -/
theorem getLsbD_add_one (v : BitVec N) (hs : v.toNat % 2 ^ B < 2 ^ B - 1) (hBN : B ≤ N) {j : Nat}
    (hj : B ≤ j) : (v + 1#N).getLsbD j = v.getLsbD j := by
  apply getLsbD_ext_div (k := B) _ hj
  have hp := Nat.two_pow_pos B
  have hB0 : 0 < B := by
    rcases Nat.eq_zero_or_pos B with h | h
    · subst h; simp at hs
    · exact h
  have hle : 2 ^ B ≤ 2 ^ N := Nat.pow_le_pow_right (by omega) hBN
  have h1 : 1 % 2 ^ N = 1 := Nat.mod_eq_of_lt (by
    have : 2 ^ 1 ≤ 2 ^ N := Nat.pow_le_pow_right (by omega) (by omega)
    omega)
  have hdvd : 2 ^ B ∣ 2 ^ N := Nat.pow_dvd_pow 2 hBN
  have hv := v.isLt
  have hlt : v.toNat + 1 < 2 ^ N := by
    rcases Nat.lt_or_ge (v.toNat + 1) (2 ^ N) with h | h
    · exact h
    · exfalso
      have : v.toNat = 2 ^ N - 1 := by omega
      have hmod : (v.toNat + 1) % 2 ^ B = 0 := by
        rw [this, Nat.sub_add_cancel (Nat.one_le_two_pow)]
        exact Nat.mod_eq_zero_of_dvd hdvd
      rw [Nat.add_mod, Nat.mod_eq_of_lt (a := 1) (by
        have : 2 ^ 1 ≤ 2 ^ B := Nat.pow_le_pow_right (by omega) hB0
        omega), Nat.mod_eq_of_lt (by omega)] at hmod
      omega
  rw [BitVec.toNat_add, BitVec.toNat_ofNat, h1, Nat.mod_eq_of_lt hlt]
  have := Nat.div_add_mod v.toNat (2 ^ B)
  rw [Nat.div_eq_iff hp]
  constructor
  · rw [Nat.div_mul_self_eq_mod_sub_self] at *; omega
  · have h3 := Nat.div_add_mod v.toNat (2 ^ B)
    rw [Nat.mul_comm] at h3
    omega

/-- Subtracting one from a non-zero size field leaves all higher bits alone. -/
theorem getLsbD_sub_one (v : BitVec N) (hs : 0 < v.toNat % 2 ^ B) (hBN : B ≤ N) {j : Nat}
    (hj : B ≤ j) : (v - 1#N).getLsbD j = v.getLsbD j := by
  apply getLsbD_ext_div (k := B) _ hj
  have hp := Nat.two_pow_pos B
  have hB0 : 0 < B := by
    rcases Nat.eq_zero_or_pos B with h | h
    · subst h; simp [Nat.mod_one] at hs
    · exact h
  have h1 : 1 % 2 ^ N = 1 := Nat.mod_eq_of_lt (by
    have : 2 ^ 1 ≤ 2 ^ N := Nat.pow_le_pow_right (by omega) (by omega)
    omega)
  have hv := v.isLt
  have hle := Nat.mod_le v.toNat (2 ^ B)
  rw [BitVec.toNat_sub, BitVec.toNat_ofNat, h1,
    show 2 ^ N - 1 + v.toNat = (v.toNat - 1) + 2 ^ N by omega, Nat.add_mod_right,
    Nat.mod_eq_of_lt (by omega), Nat.div_eq_iff hp]
  have h3 := Nat.div_add_mod v.toNat (2 ^ B)
  have h4 := Nat.mod_lt v.toNat hp
  rw [Nat.mul_comm] at h3
  constructor <;> omega

theorem size_congr (hBN : B ≤ N) {v w : BitVec N}
    (h : ∀ b, b < B → v.getLsbD b = w.getLsbD b) : size B v = size B w := by
  rw [size_eq hBN, size_eq hBN]
  apply Nat.eq_of_testBit_eq
  intro b
  rw [Nat.testBit_mod_two_pow, Nat.testBit_mod_two_pow, BitVec.testBit_toNat, BitVec.testBit_toNat]
  by_cases hb : b < B
  · rw [h b hb]
  · simp [hb]

theorem size_add_one (hBN : B ≤ N) (v : BitVec N) (hs : size B v < 2 ^ B - 1) :
    size B (v + 1#N) = size B v + 1 := by
  rw [size_eq hBN] at *
  rw [size_eq hBN, BitVec.toNat_add, BitVec.toNat_ofNat, Nat.mod_mod_of_dvd _ (Nat.pow_dvd_pow 2 hBN),
    Nat.add_mod, Nat.mod_mod_of_dvd _ (Nat.pow_dvd_pow 2 hBN), ← Nat.add_mod, Nat.add_mod,
    Nat.mod_eq_of_lt (a := 1) (by omega), Nat.mod_eq_of_lt (by omega)]

theorem size_sub_one (hBN : B ≤ N) (v : BitVec N) (hs : 0 < size B v) :
    size B (v - 1#N) = size B v - 1 := by
  rw [size_eq hBN] at *
  have hp := Nat.two_pow_pos B
  have hB0 : 0 < B := by
    rcases Nat.eq_zero_or_pos B with h | h
    · subst h; simp [Nat.mod_one] at hs
    · exact h
  have h1 : 1 % 2 ^ N = 1 := Nat.mod_eq_of_lt (by
    have : 2 ^ 1 ≤ 2 ^ N := Nat.pow_le_pow_right (by omega) (by omega)
    omega)
  have hv := v.isLt
  have hle := Nat.mod_le v.toNat (2 ^ B)
  have h3 := Nat.div_add_mod v.toNat (2 ^ B)
  have h4 := Nat.mod_lt v.toNat hp
  rw [size_eq hBN, BitVec.toNat_sub, BitVec.toNat_ofNat, h1,
    show 2 ^ N - 1 + v.toNat = (v.toNat - 1) + 2 ^ N by omega, Nat.add_mod_right,
    Nat.mod_eq_of_lt (a := v.toNat - 1) (by omega)]
  rw [show v.toNat - 1 = (v.toNat % 2 ^ B - 1) + 2 ^ B * (v.toNat / 2 ^ B) by omega,
    Nat.add_mul_mod_self_left, Nat.mod_eq_of_lt (by omega)]

theorem getLsbD_widthMask (p : Params N B W) {j : Nat} (hj : j < N) :
    (widthMask N B W).getLsbD j = decide (j < (W + 1) * B) := by
  unfold widthMask
  have := p.hN
  split
  · simp [hj]; omega
  · rw [getLsbD_lowMask _ _ _ (by omega)]

/-! ### insert_from_back -/

theorem size_insertFromBack (p : Params N B W) (v : BitVec N) {i : Nat} (hi : i < W)
    (hs : size B v < W) : size B (insertFromBack B W v i).1 = size B v + 1 := by
  have hBN := p.hBN
  have hS := p.hS
  rw [← size_add_one hBN v (by omega)]
  apply size_congr hBN
  intro b hb
  have h1 := shift_lt p hi
  have hsh : B ≤ shiftOf B i := by unfold shiftOf; omega
  simp only [insertFromBack, BitVec.getLsbD_or, BitVec.getLsbD_and, BitVec.getLsbD_shiftLeft,
    BitVec.getLsbD_not, getLsbD_lowMask N _ _ (show shiftOf B i ≤ N by omega)]
  have e1 : b < shiftOf B i := by omega
  have e2 : b < N := by omega
  simp [e1, e2]

theorem get_insertFromBack (p : Params N B W) (v : BitVec N) {i k : Nat} (hi : i < W)
    (hk : k < W) (hs : size B v < W) :
    get B (insertFromBack B W v i).1 k =
      if k < i then get B v k else if k = i then get B v (W - 1) else get B v (k - 1) := by
  have hBN := p.hBN
  have hS := p.hS
  have h1 := shift_lt p hi
  have h2 := shift_lt p hk
  have hsz := size_eq hBN v
  have hbit : ∀ b, b < B → (insertFromBack B W v i).1.getLsbD (shiftOf B k + b) =
      if k < i then v.getLsbD (shiftOf B k + b)
      else if k = i then v.getLsbD (shiftOf B (W - 1) + b)
      else v.getLsbD (shiftOf B (k - 1) + b) := by
    intro b hb
    have hadd : (v + 1#N).getLsbD (shiftOf B k + b) = v.getLsbD (shiftOf B k + b) :=
      getLsbD_add_one v (by omega) hBN (by unfold shiftOf; omega)
    simp only [insertFromBack, back, BitVec.getLsbD_or, BitVec.getLsbD_and,
      BitVec.getLsbD_shiftLeft, BitVec.getLsbD_not, fieldMask,
      getLsbD_lowMask N _ _ (show shiftOf B i ≤ N by omega),
      getLsbD_lowMask N _ _ hBN, getLsbD_ofNat_get hBN, hadd]
    have e2 : shiftOf B k + b < N := by omega
    rcases Nat.lt_trichotomy k i with h | h | h
    · have := mul_field_le (B := B) h
      have e1 : shiftOf B k + b < shiftOf B i := by unfold shiftOf; omega
      simp [h, e1, e2]
    · subst h
      have e1 : ¬ (shiftOf B k + b < shiftOf B k) := by omega
      simp [e1, e2, hb]
    · have := mul_field_le (B := B) h
      have e1 : ¬ (shiftOf B k + b < shiftOf B i) := by unfold shiftOf; omega
      have e3 : ¬ (shiftOf B k + b - shiftOf B i < B) := by unfold shiftOf; omega
      have e4 : ¬ k < i := by omega
      have e5 : ¬ k = i := by omega
      obtain ⟨m, rfl⟩ := Nat.exists_eq_add_of_lt h
      have e6 : ¬ (shiftOf B (i + m + 1) + b < B) := by unfold shiftOf; omega
      have e7 : shiftOf B (i + m + 1) + b - B = shiftOf B (i + m + 1 - 1) + b := by
        unfold shiftOf; rw [Nat.add_sub_cancel, Nat.succ_mul]; omega
      simp [e1, e2, e3, e4, e5, e6, e7]
  split
  · apply get_congr hBN; intro b hb; rw [hbit b hb]; simp [*]
  · split
    · apply get_congr hBN; intro b hb; rw [hbit b hb]; simp [*]
    · apply get_congr hBN; intro b hb; rw [hbit b hb]; simp [*]

/-! ### set_size -/

theorem size_setSize (p : Params N B W) (v : BitVec N) {n : Nat} (hn : n ≤ W) :
    size B (setSize B v n) = n := by
  have hBN := p.hBN
  have hS := p.hS
  rw [size_eq hBN]
  apply Nat.eq_of_testBit_eq
  intro b
  rw [Nat.testBit_mod_two_pow, BitVec.testBit_toNat]
  by_cases hb : b < B
  · have : b < N := by omega
    simp only [setSize, fieldMask, BitVec.getLsbD_or, BitVec.getLsbD_and, BitVec.getLsbD_not,
      getLsbD_lowMask N _ _ hBN, BitVec.getLsbD_ofNat]
    simp [hb, this]
  · simp only [hb, decide_false, Bool.false_and]
    symm
    apply Nat.testBit_lt_two_pow
    have : 2 ^ B ≤ 2 ^ b := Nat.pow_le_pow_right (by omega) (by omega)
    omega

theorem get_setSize (p : Params N B W) (v : BitVec N) {n k : Nat} (hn : n ≤ W) (hk : k < W) :
    get B (setSize B v n) k = get B v k := by
  have hBN := p.hBN
  have hS := p.hS
  have h2 := shift_lt p hk
  apply get_congr hBN
  intro b hb
  have e1 : shiftOf B k + b < N := by omega
  have e2 : ¬ (shiftOf B k + b < B) := by unfold shiftOf; omega
  have e3 : n.testBit (shiftOf B k + b) = false := by
    apply Nat.testBit_lt_two_pow
    have : 2 ^ B ≤ 2 ^ (shiftOf B k + b) := Nat.pow_le_pow_right (by omega) (by omega)
    omega
  simp only [setSize, fieldMask, BitVec.getLsbD_or, BitVec.getLsbD_and, BitVec.getLsbD_not,
    getLsbD_lowMask N _ _ hBN, BitVec.getLsbD_ofNat]
  simp [e1, e2, e3]

/-! ### exchange / swap_free_slots -/

theorem swapFreeSlots_eq_exchange (v : BitVec N) (i j : Nat) :
    swapFreeSlots B v i j = exchange B v i j := rfl

theorem size_exchange (p : Params N B W) (v : BitVec N) {i j : Nat} :
    size B (exchange B v i j) = size B v := by
  have hBN := p.hBN
  apply size_congr hBN
  intro b hb
  unfold exchange
  split
  · rfl
  · have e1 : b < shiftOf B i := by unfold shiftOf; omega
    have e2 : b < shiftOf B j := by unfold shiftOf; omega
    simp [e1, e2]

theorem get_exchange (p : Params N B W) (v : BitVec N) {i j k : Nat} (hi : i < W) (hj : j < W)
    (hk : k < W) :
    get B (exchange B v i j) k =
      if k = i then get B v j else if k = j then get B v i else get B v k := by
  have hBN := p.hBN
  have h1 := shift_lt p hi
  have h2 := shift_lt p hj
  have h3 := shift_lt p hk
  unfold exchange
  split
  · next h => subst h; split <;> simp_all
  next hij =>
  have hfar : ∀ a b c : Nat, c < B → a ≠ b →
      (decide (shiftOf B a + c < N) && !decide (shiftOf B a + c < shiftOf B b) &&
        decide (shiftOf B a + c - shiftOf B b < B)) = false := by
    intro a b c hc hab
    rcases Nat.lt_or_gt_of_ne hab with h | h
    · have := mul_field_le (B := B) h
      have e : shiftOf B a + c < shiftOf B b := by unfold shiftOf; omega
      simp [e]
    · have := mul_field_le (B := B) h
      have e : ¬ (shiftOf B a + c - shiftOf B b < B) := by unfold shiftOf; omega
      simp [e]
  have hfar' : ∀ (a b c : Nat) (x : Bool), c < B → a ≠ b →
      (!decide (shiftOf B a + c < shiftOf B b) &&
        (x && decide (shiftOf B a + c - shiftOf B b < B))) = false := by
    intro a b c x hc hab
    rcases Nat.lt_or_gt_of_ne hab with h | h
    · have := mul_field_le (B := B) h
      have e : shiftOf B a + c < shiftOf B b := by unfold shiftOf; omega
      simp [e]
    · have := mul_field_le (B := B) h
      have e : ¬ (shiftOf B a + c - shiftOf B b < B) := by unfold shiftOf; omega
      simp [e]
  split
  · next h =>
    subst h
    apply get_congr hBN
    intro b hb
    have e1 : shiftOf B k + b < N := by omega
    have e2 : ¬ (shiftOf B k + b < shiftOf B k) := by omega
    simp only [BitVec.getLsbD_xor, BitVec.getLsbD_or, BitVec.getLsbD_and, BitVec.getLsbD_shiftLeft,
      BitVec.getLsbD_ushiftRight, fieldMask, getLsbD_lowMask N _ _ hBN, e1, e2, decide_true,
      Bool.true_and, hfar' k j b _ hb hij]
    simp [hb]
  · split
    · next hki hkj =>
      subst hkj
      apply get_congr hBN
      intro b hb
      have e1 : shiftOf B k + b < N := by omega
      have e2 : ¬ (shiftOf B k + b < shiftOf B k) := by omega
      simp only [BitVec.getLsbD_xor, BitVec.getLsbD_or, BitVec.getLsbD_and,
        BitVec.getLsbD_shiftLeft,
        BitVec.getLsbD_ushiftRight, fieldMask, getLsbD_lowMask N _ _ hBN, e1, e2, decide_true,
        Bool.true_and, hfar' k i b _ hb hki]
      simp [hb]
      rw [Bool.xor_comm (v.getLsbD (shiftOf B i + b)), ← Bool.xor_assoc]; simp
    · next hki hkj =>
      apply get_congr hBN
      intro b hb
      have e1 : shiftOf B k + b < N := by omega
      simp only [BitVec.getLsbD_xor, BitVec.getLsbD_or, BitVec.getLsbD_and,
        BitVec.getLsbD_shiftLeft,
        BitVec.getLsbD_ushiftRight, fieldMask, getLsbD_lowMask N _ _ hBN, e1, decide_true,
        Bool.true_and, hfar' k i b _ hb hki, hfar' k j b _ hb hkj]
      simp

/-! ### remove_to_back -/

theorem size_and_widthMask (p : Params N B W) (v : BitVec N) :
    size B (v &&& widthMask N B W) = size B v := by
  have hBN := p.hBN
  apply size_congr hBN
  intro b hb
  have : b < (W + 1) * B := by rw [Nat.succ_mul]; omega
  simp [getLsbD_widthMask p (show b < N by omega), this]

theorem size_removeToBack (p : Params N B W) (v : BitVec N) {i : Nat} (hi : i < W)
    (hs : 0 < size B v) : size B (removeToBack B W v i) = size B v - 1 := by
  have hBN := p.hBN
  have h1 := shift_lt p hi
  rw [← size_and_widthMask p v] at hs ⊢
  rw [← size_sub_one hBN _ hs]
  apply size_congr hBN
  intro b hb
  have e1 : b < shiftOf B i := by unfold shiftOf; omega
  have e2 : b < N := by omega
  simp only [removeToBack, BitVec.getLsbD_or, BitVec.getLsbD_and, BitVec.getLsbD_shiftLeft,
    BitVec.getLsbD_not, BitVec.getLsbD_ushiftRight,
    getLsbD_lowMask N _ _ (show shiftOf B i ≤ N by omega), e1, e2]
  simp
  intros
  omega

theorem get_removeToBack (p : Params N B W) (v : BitVec N) {i k : Nat} (hi : i < W)
    (hk : k < W) (hs : 0 < size B v) :
    get B (removeToBack B W v i) k =
      if k < i then get B v k else if k = W - 1 then get B v i else get B v (k + 1) := by
  have hBN := p.hBN
  have h1 := shift_lt p hi
  have h2 := shift_lt p hk
  have hN := p.hN
  have hWB : (W + 1) * B = W * B + B := Nat.succ_mul ..
  have hkB := mul_field_le (B := B) hk
  have hiB := mul_field_le (B := B) hi
  have hx : ∀ j, (v &&& widthMask N B W).getLsbD j = (decide (j < (W + 1) * B) && v.getLsbD j) := by
    intro j
    by_cases hj : j < N
    · simp [getLsbD_widthMask p hj, Bool.and_comm]
    · simp [BitVec.getLsbD_of_ge _ _ (Nat.le_of_not_lt hj)]
  have hsub : ∀ j, B ≤ j → ((v &&& widthMask N B W) - 1#N).getLsbD j
      = (v &&& widthMask N B W).getLsbD j := by
    intro j hj
    apply getLsbD_sub_one _ _ hBN hj
    rw [← size_eq hBN, size_and_widthMask p]; exact hs
  have hshW : (W - 1 - i) * B + (i * B + B) = W * B := by
    have : W - 1 - i + (i + 1) = W := by omega
    conv => rhs; rw [← this, Nat.add_mul, Nat.succ_mul]
  have hbit : ∀ b, b < B → (removeToBack B W v i).getLsbD (shiftOf B k + b) =
      if k < i then v.getLsbD (shiftOf B k + b)
      else if k = W - 1 then v.getLsbD (shiftOf B i + b)
      else v.getLsbD (shiftOf B (k + 1) + b) := by
    intro b hb
    simp only [removeToBack, BitVec.getLsbD_or, BitVec.getLsbD_and (x := _ - _),
      BitVec.getLsbD_and (x := _ >>> _), BitVec.getLsbD_and (y := ~~~ _),
      BitVec.getLsbD_shiftLeft,
      BitVec.getLsbD_not, BitVec.getLsbD_ushiftRight,
      getLsbD_lowMask N _ _ (show shiftOf B i ≤ N by omega),
      hsub (shiftOf B k + b) (by unfold shiftOf; omega), hx]
    have e2 : shiftOf B k + b < N := by omega
    have e3 : shiftOf B k + b < (W + 1) * B := by unfold shiftOf; omega
    by_cases h : k < i
    · have := mul_field_le (B := B) h
      have e1 : shiftOf B k + b < shiftOf B i := by unfold shiftOf; omega
      simp [h, e1, e2, e3]
      intros; omega
    · have hik : i ≤ k := by omega
      have hikB := Nat.mul_le_mul_right B hik
      have e1 : ¬ (shiftOf B k + b < shiftOf B i) := by unfold shiftOf; omega
      by_cases h' : k = W - 1
      · have hkW : k * B + B = W * B := by
          have : W = k + 1 := by omega
          rw [this, Nat.succ_mul]
        have e4 : ¬ (B + (shiftOf B k + b) < (W + 1) * B) := by unfold shiftOf; omega
        have e5 : ¬ (shiftOf B k + b < (W - 1 - i) * B) := by unfold shiftOf; omega
        have e6 : shiftOf B k + b - (W - 1 - i) * B = shiftOf B i + b := by
          unfold shiftOf; omega
        have e7 : shiftOf B i + b < (W + 1) * B := by unfold shiftOf; omega
        have e8 : shiftOf B i + b < N := by omega
        have e9 : ¬ (shiftOf B i + b < shiftOf B i) := by omega
        rw [if_neg h, if_pos h']
        simp [e1, e2, e3, e4, e5, e6, e7, e8, e9]
      · have hk1 : k + 1 < W := by omega
        have hk1B := mul_field_le (B := B) hk1
        have hk1B' : (k + 1) * B = k * B + B := Nat.succ_mul ..
        have e4 : (B + (shiftOf B k + b) < (W + 1) * B) := by unfold shiftOf; omega
        have e6 : B + (shiftOf B k + b) = shiftOf B (k + 1) + b := by unfold shiftOf; omega
        have e10 : shiftOf B k + b < (W - 1 - i) * B ∨
            shiftOf B k + b - (W - 1 - i) * B < shiftOf B i := by unfold shiftOf; omega
        rw [e6] at e4 ⊢
        rw [if_neg h, if_neg h']
        rcases e10 with e10 | e10
        · simp [e1, e2, e3, e4, e10]
        · simp [e1, e2, e3, e4, e10]
  split
  · apply get_congr hBN; intro b hb; rw [hbit b hb]; simp [*]
  · split
    · next h h' => apply get_congr hBN; intro b hb; rw [hbit b hb, if_neg h, if_pos h']
    · apply get_congr hBN; intro b hb; rw [hbit b hb]; simp [*]

/-! ### remove -/

theorem shiftLeft_shiftLeft_one (a : Nat) : ((1#N <<< a) <<< B) - 1#N = lowMask N (a + B) := by
  unfold lowMask; rw [BitVec.shiftLeft_add]

theorem size_remove (p : Params N B W) (v : BitVec N) {i : Nat} (hi : i < size B v)
    (hs : size B v ≤ W) : size B (remove B v i) = size B v - 1 := by
  have hBN := p.hBN
  rw [← size_sub_one hBN v (by omega)]
  unfold remove
  simp only
  split
  · rfl
  · apply size_congr hBN
    intro b hb
    have e1 : b < shiftOf B i := by unfold shiftOf; omega
    have e2 : b < N := by omega
    simp only [BitVec.getLsbD_or, BitVec.getLsbD_and, BitVec.getLsbD_shiftLeft,
      BitVec.getLsbD_not, BitVec.getLsbD_ushiftRight]
    simp [e1, e2]

theorem get_remove (p : Params N B W) (v : BitVec N) {i k : Nat} (hi : i < size B v)
    (hk : k < W) (hs : size B v ≤ W) :
    get B (remove B v i) k =
      if k < i then get B v k else if k + 1 < size B v then get B v (k + 1)
      else if k + 1 = size B v then get B v i else get B v k := by
  have hBN := p.hBN
  have h2 := shift_lt p hk
  have hN := p.hN
  have hsub : ∀ j, B ≤ j → (v - 1#N).getLsbD j = v.getLsbD j := by
    intro j hj
    apply getLsbD_sub_one _ _ hBN hj
    rw [← size_eq hBN]; omega
  unfold remove
  simp only
  split
  · next h =>
    have : get B (v - 1#N) k = get B v k := by
      apply get_congr hBN; intro b hb; rw [hsub _ (by unfold shiftOf; omega)]
    rw [this]
    split
    · rfl
    · split
      · omega
      · split
        · next h3 => rw [show k = i by omega]
        · rfl
  · next h =>
    generalize hsz : size B v = sz at *
    have hWB : (W + 1) * B = W * B + B := Nat.succ_mul ..
    have hkB := mul_field_le (B := B) hk
    have hszB := Nat.mul_le_mul_right B hs
    have hrot : (sz - i - 1) * B + B + i * B = sz * B := by
      have : sz = (sz - i - 1) + 1 + i := by omega
      conv => rhs; rw [this, Nat.add_mul, Nat.succ_mul]
    rw [shiftLeft_shiftLeft_one]
    have hm : ∀ j, ((lowMask N ((sz - i - 1) * B + B)) <<< shiftOf B i).getLsbD j
        = decide (shiftOf B i ≤ j ∧ j < sz * B + B) := by
      intro j
      rw [BitVec.getLsbD_shiftLeft, getLsbD_lowMask _ _ _ (by omega)]
      have hiB : i * B + B ≤ sz * B := mul_field_le hi
      rw [Bool.eq_iff_iff]
      simp only [Bool.and_eq_true, decide_eq_true_eq, Bool.not_eq_true', decide_eq_false_iff_not]
      unfold shiftOf
      omega
    generalize (lowMask N ((sz - i - 1) * B + B)) <<< shiftOf B i = M at hm ⊢
    have hbit : ∀ b, b < B → (((v - 1#N) &&& ~~~ M)
        ||| (((v &&& M) >>> B) &&& M)
        ||| (((v &&& M) <<< ((sz - i - 1) * B)) &&& M)).getLsbD (shiftOf B k + b) =
        if k < i then v.getLsbD (shiftOf B k + b)
        else if k + 1 < sz then v.getLsbD (shiftOf B (k + 1) + b)
        else if k + 1 = sz then v.getLsbD (shiftOf B i + b) else v.getLsbD (shiftOf B k + b) := by
      intro b hb
      rw [BitVec.getLsbD_or, BitVec.getLsbD_or, BitVec.getLsbD_and, BitVec.getLsbD_not,
        BitVec.getLsbD_and, BitVec.getLsbD_ushiftRight, BitVec.getLsbD_and,
        BitVec.getLsbD_and, BitVec.getLsbD_shiftLeft, BitVec.getLsbD_and,
        hsub _ (by unfold shiftOf; omega), hm, hm, hm]
      have e2 : shiftOf B k + b < N := by omega
      have hk1B' : (k + 1) * B = k * B + B := Nat.succ_mul ..
      by_cases h : k < i
      · have := mul_field_le (B := B) h
        have e1 : ¬ (shiftOf B i ≤ shiftOf B k + b) := by unfold shiftOf; omega
        simp [h, e1, e2]
      · have hik : i ≤ k := by omega
        have hikB := Nat.mul_le_mul_right B hik
        have e1 : (shiftOf B i ≤ shiftOf B k + b) := by unfold shiftOf; omega
        rw [if_neg h]
        by_cases h' : k + 1 < sz
        · have hk1B := mul_field_le (B := B) h'
          have e3 : shiftOf B k + b < sz * B + B := by unfold shiftOf; omega
          have e4 : shiftOf B i ≤ B + (shiftOf B k + b) := by omega
          have e5 : B + (shiftOf B k + b) < sz * B + B := by unfold shiftOf; omega
          have e6 : B + (shiftOf B k + b) = shiftOf B (k + 1) + b := by unfold shiftOf; omega
          have e10 : shiftOf B k + b < (sz - i - 1) * B ∨
            ¬ (shiftOf B i ≤ shiftOf B k + b - (sz - i - 1) * B) := by unfold shiftOf; omega
          rw [if_pos h']
          rw [e6] at e4 e5 ⊢
          rcases e10 with e10 | e10 <;> simp [e1, e2, e3, e4, e5, e10]
        · rw [if_neg h']
          by_cases h'' : k + 1 = sz
          · subst h''
            have e3 : shiftOf B k + b < (k + 1) * B + B := by unfold shiftOf; omega
            have e5 : ¬ (B + (shiftOf B k + b) < (k + 1) * B + B) := by unfold shiftOf; omega
            have e7 : ¬ (shiftOf B k + b < (k + 1 - i - 1) * B) := by unfold shiftOf; omega
            have e8 : shiftOf B k + b - (k + 1 - i - 1) * B = shiftOf B i + b := by
              unfold shiftOf; omega
            have e9 : shiftOf B i + b < (k + 1) * B + B := by unfold shiftOf; omega
            rw [if_pos rfl, e8]
            simp [e1, e2, e3, e5, e7, e9]
          · have hsk : sz * B ≤ k * B := Nat.mul_le_mul_right B (by omega)
            have e3 : ¬ (shiftOf B k + b < sz * B + B) := by unfold shiftOf; omega
            rw [if_neg h'']
            simp [e2, e3]
    split
    · next c1 => apply get_congr hBN; intro b hb; rw [hbit b hb, if_pos c1]
    · next c1 =>
      split
      · next c2 => apply get_congr hBN; intro b hb; rw [hbit b hb, if_neg c1, if_pos c2]
      · next c2 =>
        split
        · next c3 =>
          apply get_congr hBN; intro b hb; rw [hbit b hb, if_neg c1, if_neg c2, if_pos c3]
        · next c3 =>
          apply get_congr hBN; intro b hb; rw [hbit b hb, if_neg c1, if_neg c2, if_neg c3]

/-! ### rotate -/

theorem size_rotate (p : Params N B W) (v : BitVec N) {i j : Nat} (hij : i ≤ j) (hj : j ≤ W) :
    size B (rotate B W v i j) = size B v := by
  have hBN := p.hBN
  unfold rotate
  split
  · rfl
  · next h =>
    have hi : i < W := by omega
    have h1 := shift_lt p hi
    rw [← size_and_widthMask p v]
    apply size_congr hBN
    intro b hb
    have e1 : b < shiftOf B i := by unfold shiftOf; omega
    have e2 : b < N := by omega
    simp only [BitVec.getLsbD_or, BitVec.getLsbD_and, BitVec.getLsbD_shiftLeft,
      BitVec.getLsbD_not, BitVec.getLsbD_ushiftRight,
      getLsbD_lowMask N _ _ (show shiftOf B i ≤ N by omega), e1, e2]
    simp
    intros
    omega

theorem get_rotate (p : Params N B W) (v : BitVec N) {i j k : Nat} (hij : i ≤ j) (hj : j ≤ W)
    (hk : k < W) :
    get B (rotate B W v i j) k =
      if k < i then get B v k
      else if k + j < W + i then get B v (k + (j - i)) else get B v (k - (W - j)) := by
  have hBN := p.hBN
  have h2 := shift_lt p hk
  have hN := p.hN
  unfold rotate
  split
  · next h =>
    split
    · rfl
    · rcases h with h | h
      · subst h
        rw [if_pos (by omega)]; simp
      · omega
  · next h =>
    have hi : i < W := by omega
    have h1 := shift_lt p hi
    have hWB : (W + 1) * B = W * B + B := Nat.succ_mul ..
    have hkB := mul_field_le (B := B) hk
    have hx : ∀ j, (v &&& widthMask N B W).getLsbD j
        = (decide (j < (W + 1) * B) && v.getLsbD j) := by
      intro j
      by_cases hj : j < N
      · simp [getLsbD_widthMask p hj, Bool.and_comm]
      · simp [BitVec.getLsbD_of_ge _ _ (Nat.le_of_not_lt hj)]
    have hji : (j - i) * B + i * B = j * B := by rw [← Nat.add_mul]; congr 1; omega
    have hWj : (W - j) * B + j * B = W * B := by rw [← Nat.add_mul]; congr 1; omega
    have hbit : ∀ b, b < B → (((v &&& widthMask N B W) &&& lowMask N (shiftOf B i))
        ||| (((v &&& widthMask N B W) >>> ((j - i) * B)) &&& ~~~ lowMask N (shiftOf B i))
        ||| (((v &&& widthMask N B W) &&& ~~~ lowMask N (shiftOf B i)) <<< ((W - j) * B))).getLsbD
          (shiftOf B k + b) =
        if k < i then v.getLsbD (shiftOf B k + b)
        else if k + j < W + i then v.getLsbD (shiftOf B (k + (j - i)) + b)
        else v.getLsbD (shiftOf B (k - (W - j)) + b) := by
      intro b hb
      have hlm := fun q => getLsbD_lowMask N (shiftOf B i) q (by omega)
      rw [BitVec.getLsbD_or, BitVec.getLsbD_or, BitVec.getLsbD_and, hx,
        BitVec.getLsbD_and, BitVec.getLsbD_ushiftRight, hx, BitVec.getLsbD_not,
        BitVec.getLsbD_shiftLeft, BitVec.getLsbD_and, BitVec.getLsbD_not, hx, hlm, hlm]
      have e2 : shiftOf B k + b < N := by omega
      have e3 : shiftOf B k + b < (W + 1) * B := by unfold shiftOf; omega
      by_cases h : k < i
      · have := mul_field_le (B := B) h
        have e1 : (shiftOf B k + b < shiftOf B i) := by unfold shiftOf; omega
        rw [if_pos h]
        have e5 : shiftOf B k + b - (W - j) * B < shiftOf B i := by omega
        simp [e1, e2, e3, e5]
      · have hik : i ≤ k := by omega
        have hikB := Nat.mul_le_mul_right B hik
        have e1 : ¬ (shiftOf B k + b < shiftOf B i) := by unfold shiftOf; omega
        rw [if_neg h]
        by_cases h' : k + j < W + i
        · rw [if_pos h']
          have hkj : (k + (j - i)) * B = k * B + (j - i) * B := Nat.add_mul ..
          have hlt : (k + (j - i)) * B + B ≤ W * B := mul_field_le (by omega)
          have e4 : (j - i) * B + (shiftOf B k + b) < (W + 1) * B := by unfold shiftOf; omega
          have e6 : (j - i) * B + (shiftOf B k + b) = shiftOf B (k + (j - i)) + b := by
            unfold shiftOf; omega
          have e5 : shiftOf B k + b < (W - j) * B ∨
              shiftOf B k + b - (W - j) * B < shiftOf B i := by unfold shiftOf; omega
          rw [e6] at e4 ⊢
          rcases e5 with e5 | e5 <;> simp [e1, e2, e3, e4, e5]
        · rw [if_neg h']
          have hkW : k = (k - (W - j)) + (W - j) := by omega
          have hkj : k * B = (k - (W - j)) * B + (W - j) * B := by
            rw [← Nat.add_mul, ← hkW]
          have hge : W * B ≤ k * B + (j - i) * B := by
            rw [← Nat.add_mul]; exact Nat.mul_le_mul_right B (by omega)
          have e4 : ¬ ((j - i) * B + (shiftOf B k + b) < (W + 1) * B) := by unfold shiftOf; omega
          have e5 : ¬ (shiftOf B k + b < (W - j) * B) := by unfold shiftOf; omega
          have e6 : shiftOf B k + b - (W - j) * B = shiftOf B (k - (W - j)) + b := by
            unfold shiftOf; omega
          have hii : i * B ≤ (k - (W - j)) * B := Nat.mul_le_mul_right B (by omega)
          have e7 : ¬ (shiftOf B (k - (W - j)) + b < shiftOf B i) := by unfold shiftOf; omega
          have e8 : shiftOf B (k - (W - j)) + b < (W + 1) * B := by unfold shiftOf; omega
          have e9 : shiftOf B (k - (W - j)) + b < N := by omega
          rw [e6]
          simp [e1, e2, e3, e4, e5, e7, e8, e9]
    split
    · next c1 => apply get_congr hBN; intro b hb; rw [hbit b hb, if_pos c1]
    · next c1 =>
      split
      · next c2 => apply get_congr hBN; intro b hb; rw [hbit b hb, if_neg c1, if_pos c2]
      · next c2 => apply get_congr hBN; intro b hb; rw [hbit b hb, if_neg c1, if_neg c2]

/-! ### set -/

theorem get_set (p : Params N B W) (v : BitVec N) {i k slot : Nat} (hi : i < W) (hk : k < W)
    (hslot : slot < 2 ^ B) : get B (set B v i slot) k = if k = i then slot else get B v k := by
  have hBN := p.hBN
  have h1 := shift_lt p hi
  have h2 := shift_lt p hk
  split
  · next h =>
    subst h
    apply Nat.eq_of_testBit_eq
    intro b
    rw [testBit_get hBN]
    by_cases hb : b < B
    · have e1 : shiftOf B k + b < N := by omega
      have e2 : ¬ (shiftOf B k + b < shiftOf B k) := by omega
      have e3 : b < N := by omega
      simp only [set, fieldMask, BitVec.getLsbD_or, BitVec.getLsbD_and, BitVec.getLsbD_not,
        BitVec.getLsbD_shiftLeft, getLsbD_lowMask N _ _ hBN, BitVec.getLsbD_ofNat]
      simp [e1, e2, e3, hb]
    · simp only [hb, decide_false, Bool.false_and]
      symm
      apply Nat.testBit_lt_two_pow
      have : 2 ^ B ≤ 2 ^ b := Nat.pow_le_pow_right (by omega) (by omega)
      omega
  · next h =>
    apply get_congr hBN
    intro b hb
    have e1 : shiftOf B k + b < N := by omega
    simp only [set, fieldMask, BitVec.getLsbD_or, BitVec.getLsbD_and, BitVec.getLsbD_not,
        BitVec.getLsbD_shiftLeft, getLsbD_lowMask N _ _ hBN, BitVec.getLsbD_ofNat]
    rcases Nat.lt_or_gt_of_ne h with h | h
    · have := mul_field_le (B := B) h
      have e : shiftOf B k + b < shiftOf B i := by unfold shiftOf; omega
      simp [e, e1]
    · have := mul_field_le (B := B) h
      have e : ¬ (shiftOf B k + b - shiftOf B i < B) := by unfold shiftOf; omega
      have e3 : slot.testBit (shiftOf B k + b - shiftOf B i) = false := by
        apply Nat.testBit_lt_two_pow
        have : 2 ^ B ≤ 2 ^ (shiftOf B k + b - shiftOf B i) :=
          Nat.pow_le_pow_right (by omega) (by omega)
        omega
      simp [e, e1, e3]

theorem size_set (p : Params N B W) (v : BitVec N) {i slot : Nat} (hi : i < W) :
    size B (set B v i slot) = size B v := by
  have hBN := p.hBN
  apply size_congr hBN
  intro b hb
  have e1 : b < shiftOf B i := by unfold shiftOf; omega
  have e2 : b < N := by omega
  simp only [set, fieldMask, BitVec.getLsbD_or, BitVec.getLsbD_and, BitVec.getLsbD_not,
        BitVec.getLsbD_shiftLeft, getLsbD_lowMask N _ _ hBN, BitVec.getLsbD_ofNat]
  simp [e1, e2]

/-! ### constructors -/

/-- Bits of the accumulation loop. -/
theorem getLsbD_fill (p : Params N B W) (f : Nat → Nat) (n a : Nat) (acc : BitVec N)
    (hf : ∀ i, a ≤ i → i < a + n → f i < 2 ^ B) (hn : a + n ≤ W) (j : Nat) (hj : j < N) :
    (fill N B f acc a n).getLsbD j =
      (acc.getLsbD j || decide (shiftOf B a ≤ j ∧ j < shiftOf B (a + n)) &&
        (f (j / B - 1)).testBit (j % B)) := by
  have hBN := p.hBN
  have hB := p.hB
  induction n generalizing a acc with
  | zero =>
    simp [fill]
    intros; omega
  | succ n ih =>
    rw [fill, ih (a + 1) _ (fun i h1 h2 => hf i (by omega) (by omega)) (by omega)]
    have h1 := shift_lt p (i := a) (by omega)
    rw [BitVec.getLsbD_or, BitVec.getLsbD_shiftLeft, BitVec.getLsbD_ofNat, Bool.or_assoc]
    congr 1
    have ha1 : shiftOf B (a + 1) = shiftOf B a + B := by unfold shiftOf; rw [Nat.succ_mul]
    rw [show a + 1 + n = a + (n + 1) by omega]
    have hmono : shiftOf B (a + 1) ≤ shiftOf B (a + (n + 1)) := by
      unfold shiftOf
      have := Nat.mul_le_mul_right B (show a + 1 ≤ a + (n + 1) by omega)
      omega
    by_cases c1 : j < shiftOf B a
    · have e1 : ¬ (shiftOf B (a + 1) ≤ j ∧ j < shiftOf B (a + (n + 1))) := by omega
      have e2 : ¬ (shiftOf B a ≤ j ∧ j < shiftOf B (a + (n + 1))) := by omega
      rw [decide_eq_false e1, decide_eq_false e2]
      simp [c1]
    · by_cases c2 : j < shiftOf B (a + 1)
      · have e1 : ¬ (shiftOf B (a + 1) ≤ j ∧ j < shiftOf B (a + (n + 1))) := by omega
        have e2 : (shiftOf B a ≤ j ∧ j < shiftOf B (a + (n + 1))) := by omega
        have e3 : j - shiftOf B a < N := by omega
        have hjB : j = (j - shiftOf B a) + B * (a + 1) := by
          unfold shiftOf at *; rw [Nat.mul_comm B, Nat.succ_mul]; omega
        have e4 : j % B = j - shiftOf B a := by
          conv => lhs; rw [hjB]
          rw [Nat.add_mul_mod_self_left, Nat.mod_eq_of_lt (by omega)]
        have e5 : j / B = a + 1 := by
          conv => lhs; rw [hjB]
          rw [Nat.add_mul_div_left _ _ (by omega), Nat.div_eq_of_lt (by omega)]; omega
        rw [e4, e5, decide_eq_false e1, decide_eq_true e2]
        simp [c1, hj, e3]
      · have e3 : (f a).testBit (j - shiftOf B a) = false := by
          apply Nat.testBit_lt_two_pow
          have : 2 ^ B ≤ 2 ^ (j - shiftOf B a) :=
            Nat.pow_le_pow_right (by omega) (by omega)
          have := hf a (by omega) (by omega)
          omega
        have e4 : (shiftOf B (a + 1) ≤ j ∧ j < shiftOf B (a + (n + 1))) ↔
          (shiftOf B a ≤ j ∧ j < shiftOf B (a + (n + 1))) := by omega
        simp [e3, e4]

theorem get_fill (p : Params N B W) (f : Nat → Nat) (n a : Nat) (acc : BitVec N)
    (hf : ∀ i, a ≤ i → i < a + n → f i < 2 ^ B) (hn : a + n ≤ W) {k : Nat} (hk : k < W)
    (hacc : a ≤ k → k < a + n → get B acc k = 0) :
    get B (fill N B f acc a n) k = if a ≤ k ∧ k < a + n then f k else get B acc k := by
  have hBN := p.hBN
  have hB := p.hB
  have h1 := shift_lt p hk
  have hsh : ∀ b, b < B → (shiftOf B k + b) / B - 1 = k ∧ (shiftOf B k + b) % B = b := by
    intro b hb
    have : shiftOf B k + b = b + B * (k + 1) := by
      unfold shiftOf; rw [Nat.mul_comm B, Nat.succ_mul]; omega
    rw [this, Nat.add_mul_div_left _ _ (by omega), Nat.div_eq_of_lt hb,
      Nat.add_mul_mod_self_left, Nat.mod_eq_of_lt hb]
    omega
  have hin : ∀ b, b < B → ((shiftOf B a ≤ shiftOf B k + b ∧ shiftOf B k + b < shiftOf B (a + n)) ↔
      (a ≤ k ∧ k < a + n)) := by
    intro b hb
    unfold shiftOf
    constructor
    · rintro ⟨x, y⟩
      constructor
      · rcases Nat.lt_or_ge k a with h | h
        · have := mul_field_le (B := B) h; omega
        · exact h
      · rcases Nat.lt_or_ge k (a + n) with h | h
        · exact h
        · have := Nat.mul_le_mul_right B h; omega
    · rintro ⟨x, y⟩
      have := Nat.mul_le_mul_right B x
      have := mul_field_le (B := B) y
      omega
  apply Nat.eq_of_testBit_eq
  intro b
  rw [testBit_get hBN]
  by_cases hb : b < B
  · rw [getLsbD_fill p f n a acc hf hn _ (by omega), (hsh b hb).1, (hsh b hb).2,
      show decide (shiftOf B a ≤ shiftOf B k + b ∧ shiftOf B k + b < shiftOf B (a + n))
        = decide (a ≤ k ∧ k < a + n) from decide_eq_decide.mpr (hin b hb)]
    split
    · next h =>
      have h0 := testBit_get hBN acc k b
      rw [hacc h.1 h.2] at h0
      simp [hb] at h0
      simp [h0, hb, h]
    · next h => simp [hb, h, testBit_get hBN]
  · simp only [hb, decide_false, Bool.false_and]
    symm
    split
    · next h =>
      apply Nat.testBit_lt_two_pow
      have : 2 ^ B ≤ 2 ^ b := Nat.pow_le_pow_right (by omega) (by omega)
      have := hf k h.1 h.2
      omega
    · rw [testBit_get hBN]; simp [hb]

theorem size_fill (p : Params N B W) (f : Nat → Nat) (n a : Nat) (acc : BitVec N)
    (hf : ∀ i, a ≤ i → i < a + n → f i < 2 ^ B) (hn : a + n ≤ W) :
    size B (fill N B f acc a n) = size B acc := by
  have hBN := p.hBN
  apply size_congr hBN
  intro b hb
  rw [getLsbD_fill p f n a acc hf hn b (by omega)]
  have : ¬ (shiftOf B a ≤ b) := by unfold shiftOf; omega
  simp [this]

theorem get_zero_of_lt (p : Params N B W) {v : BitVec N} (h : v.toNat < 2 ^ B) (k : Nat) :
    get B v k = 0 := by
  have hBN := p.hBN
  apply Nat.eq_of_testBit_eq
  intro b
  rw [testBit_get hBN, ← BitVec.testBit_toNat, Nat.testBit_lt_two_pow (x := v.toNat)]
  · simp
  · have : 2 ^ B ≤ 2 ^ (shiftOf B k + b) := Nat.pow_le_pow_right (by omega) (by unfold shiftOf; omega)
    omega

end
end Verif.Perm
