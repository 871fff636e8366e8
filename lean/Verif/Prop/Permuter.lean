import Verif.Proof.PermuterRefine
import Verif.Model.Freeze24
import Mathlib.Data.List.Perm.Basic
import Mathlib.Data.List.Rotate

/-!
# C14, C15, C16, C17: slot permutations

`Spec.PermList` (a list of slots and a size) is the specification; the words are the
bit-level code model of `Verif.Model.Permuter`.
-/
namespace Verif.Perm
open Verif.Spec

/-! ## List-level facts -/

theorem getD_eq {l : List Nat} {i : Nat} (h : i < l.length) : l.getD i 0 = l[i] := by
  rw [List.getD_eq_getElem?_getD, List.getElem?_eq_getElem h]; rfl

theorem insertIdx_perm {l : List Nat} {i : Nat} {a : Nat} (h : i ≤ l.length) :
    (l.insertIdx i a).Perm (a :: l) := List.perm_insertIdx a l h

theorem getD_cons_eraseIdx_perm {l : List Nat} {i : Nat} (h : i < l.length) :
    (l.getD i 0 :: l.eraseIdx i).Perm l := by
  rw [getD_eq h]
  exact List.getElem_cons_eraseIdx_perm h

theorem swapAt_perm {l : List Nat} {i j : Nat} (hi : i < l.length) (hj : j < l.length) :
    (swapAt l i j).Perm l := by
  unfold swapAt
  rw [getD_eq hi, getD_eq hj]
  exact List.set_set_perm hi hj

theorem PermOp_apply_valid {W : Nat} (hW : 1 ≤ W) (q : PermList) (hq : q.Valid W) (op : PermOp)
    (hl : op.Legal W q) : (op.apply W q).Valid W := by
  obtain ⟨hp, hs⟩ := hq
  have hlen : q.slots.length = W := by simpa using hp.length_eq
  cases op with
  | insertFromBack i =>
    obtain ⟨h1, h2⟩ := hl
    refine ⟨?_, by simp only [PermOp.apply]; omega⟩
    simp only [PermOp.apply]
    refine (insertIdx_perm (by simp; omega)).trans (List.Perm.trans ?_ hp)
    have hne : q.slots ≠ [] := by intro h; simp [h] at hlen; omega
    have : q.slots.getD (W - 1) 0 = q.slots.getLast hne := by
      rw [List.getLast_eq_getElem, getD_eq (by omega)]
      congr 1; omega
    rw [this]
    conv => rhs; rw [← List.dropLast_append_getLast hne]
    exact (List.perm_append_singleton _ _).symm
  | removeToBack i =>
    simp only [PermOp.Legal] at hl
    refine ⟨?_, by simp only [PermOp.apply]; omega⟩
    simp only [PermOp.apply]
    exact (List.perm_append_singleton _ _).trans
      ((getD_cons_eraseIdx_perm (by omega)).trans hp)
  | remove i =>
    simp only [PermOp.Legal] at hl
    refine ⟨?_, by simp only [PermOp.apply]; omega⟩
    simp only [PermOp.apply]
    refine (insertIdx_perm ?_).trans ((getD_cons_eraseIdx_perm (by omega)).trans hp)
    rw [List.length_eraseIdx, if_pos (by omega)]; omega
  | exchange i j =>
    obtain ⟨h1, h2⟩ := hl
    exact ⟨(swapAt_perm (by omega) (by omega)).trans hp, hs⟩
  | rotate i j =>
    obtain ⟨h1, h2⟩ := hl
    refine ⟨?_, hs⟩
    simp only [PermOp.apply]
    refine List.Perm.trans ?_ hp
    have e : q.slots = q.slots.take i ++ ((q.slots.drop i).take (j - i) ++ q.slots.drop j) := by
      conv => lhs; rw [← List.take_append_drop i q.slots, ← List.take_append_drop (j - i) (q.slots.drop i)]
      rw [List.drop_drop]; congr 3; omega
    conv => rhs; rw [e]
    rw [List.append_assoc]
    exact List.Perm.append_left _ List.perm_append_comm
  | swapFreeSlots i j =>
    obtain ⟨_, _, h1, h2⟩ := hl
    exact ⟨(swapAt_perm (by omega) (by omega)).trans hp, hs⟩
  | setSize n => exact ⟨hp, hl⟩

theorem LegalRun_valid {W : Nat} (hW : 1 ≤ W) (ops : List PermOp) (q : PermList) (hq : q.Valid W)
    (hl : LegalRun W q ops) : (applyAll W q ops).Valid W := by
  induction ops generalizing q with
  | nil => exact hq
  | cons op ops ih => exact ih _ (PermOp_apply_valid hW q hq op hl.1) hl.2

/-- Run a list of calls of the modelled code. -/
def runAll {N : Nat} (B W : Nat) (v : BitVec N) (ops : List PermOp) : BitVec N :=
  ops.foldl (runOp B W) v

theorem runAll_refines {N B W : Nat} (p : Params N B W) (ops : List PermOp) (v : BitVec N)
    (hv : (toSpec B W v).Valid W) (hl : LegalRun W (toSpec B W v) ops) :
    toSpec B W (runAll B W v ops) = applyAll W (toSpec B W v) ops := by
  induction ops generalizing v with
  | nil => rfl
  | cons op ops ih =>
    have h := runOp_refines p v hv.2 op hl.1
    have hv' := PermOp_apply_valid p.hW _ hv op hl.1
    simp only [runAll, List.foldl_cons, applyAll]
    rw [← h] at hv' ⊢
    exact ih _ hv' (h ▸ hl.2)

/-! ## C14 -/

/-- The constructors of `Permuter24` denote the intended permuters. -/
theorem C14_constructors : toSpec 5 24 (initial 128 5 24) = PermList.empty 24 ∧
    ∀ n, n ≤ 24 → toSpec 5 24 (makeSorted24 n) = PermList.sorted 24 n := by
  refine ⟨by decide +kernel, fun n hn => ?_⟩
  have h : ∀ n, n < 25 → toSpec 5 24 (makeSorted24 n) = PermList.sorted 24 n := by decide +kernel
  exact h n (by omega)

theorem empty_valid (W : Nat) : (PermList.empty W).Valid W :=
  ⟨List.reverse_perm _, Nat.zero_le _⟩

theorem sorted_valid {W n : Nat} (hn : n ≤ W) : (PermList.sorted W n).Valid W := by
  refine ⟨?_, hn⟩
  have h : List.range n = (List.range W).take n := by
    rw [List.take_range, Nat.min_eq_left hn]
  simp only [PermList.sorted, h]
  refine (List.Perm.append_left _ (List.reverse_perm _)).trans ?_
  rw [List.take_append_drop]

/-- **C14.** After any legal sequence of permuter calls starting from the empty or a sorted
24-slot permuter, every slot occurs exactly once and the size is at most 24. -/
theorem C14_permutation_preserved (ops : List PermOp) (v : BitVec 128)
    (hv : v = initial 128 5 24 ∨ ∃ n, n ≤ 24 ∧ v = makeSorted24 n)
    (hl : LegalRun 24 (toSpec 5 24 v) ops) :
    let w := runAll 5 24 v ops
    size 5 w ≤ 24 ∧ (∀ slot, slot < 24 → ∃ i, (i < 24 ∧ get 5 w i = slot) ∧
      ∀ j, j < 24 ∧ get 5 w j = slot → j = i) ∧ ∀ i, i < 24 → get 5 w i < 24 := by
  have hval : (toSpec 5 24 v).Valid 24 := by
    rcases hv with rfl | ⟨n, hn, rfl⟩
    · rw [C14_constructors.1]; exact empty_valid 24
    · rw [C14_constructors.2 n hn]; exact sorted_valid hn
  intro w
  have h := runAll_refines params24 ops v hval hl
  have hv2 := LegalRun_valid (by decide) ops _ hval hl
  rw [← h] at hv2
  obtain ⟨hp, hs⟩ := hv2
  have hnd : (toSpec 5 24 w).slots.Nodup := hp.nodup_iff.mpr List.nodup_range
  refine ⟨hs, ?_, ?_⟩
  · intro slot hslot
    have hm : slot ∈ (toSpec 5 24 w).slots := hp.mem_iff.mpr (List.mem_range.mpr hslot)
    obtain ⟨i, hi, he⟩ := List.getElem_of_mem hm
    have hi' : i < 24 := by simpa using hi
    refine ⟨i, ⟨hi', ?_⟩, ?_⟩
    · have := getElem?_toSpec (B := 5) (W := 24) w hi'
      rw [List.getElem?_eq_getElem hi, he] at this
      simpa using this.symm
    · rintro j ⟨hj, hje⟩
      have hj' : j < (toSpec 5 24 w).slots.length := by simpa using hj
      have := getElem?_toSpec (B := 5) (W := 24) w hj
      rw [List.getElem?_eq_getElem hj', hje, Option.some_inj] at this
      exact (List.Nodup.getElem_inj_iff hnd).mp (this.trans he.symm)
  · intro i hi
    have hm : get 5 w i ∈ (toSpec 5 24 w).slots := by
      have := getElem?_toSpec (B := 5) (W := 24) w hi
      exact List.mem_of_getElem? this
    exact List.mem_range.mp (hp.mem_iff.mp hm)

/-- Non-vacuity of C14: a legal run exercising every operation. -/
example : LegalRun 24 (toSpec 5 24 (initial 128 5 24))
    [.insertFromBack 0, .insertFromBack 0, .insertFromBack 1, .swapFreeSlots 20 23, .remove 0,
     .exchange 3 7, .rotate 2 9, .removeToBack 1, .setSize 1] := by
  rw [C14_constructors.1]
  simp only [LegalRun, PermOp.Legal]
  decide +kernel

/-! ## C15 -/

/-- **C15.** Every 24-slot permuter call acts on the logical slot list exactly as specified. -/
theorem C15_operations_refine (v : BitVec 128) (hv : size 5 v ≤ 24) (op : PermOp)
    (hl : op.Legal 24 (toSpec 5 24 v)) :
    toSpec 5 24 (runOp 5 24 v op) = op.apply 24 (toSpec 5 24 v) :=
  runOp_refines params24 v hv op hl

/-- **C15**, insertion in elementary terms: the size grows by one, positions below `i` keep
their slot, position `i` gets the former back slot, which is also the returned slot, and later
positions move up by one. -/
theorem C15_insert_positions (v : BitVec 128) (i : Nat) (hi : i ≤ size 5 v) (hs : size 5 v < 24) :
    let r := insertFromBack 5 24 v i
    size 5 r.1 = size 5 v + 1 ∧ r.2 = get 5 v 23 ∧ get 5 r.1 i = r.2 ∧
    (∀ k, k < i → get 5 r.1 k = get 5 v k) ∧
    (∀ k, i ≤ k → k < 23 → get 5 r.1 (k + 1) = get 5 v k) := by
  intro r
  refine ⟨size_insertFromBack params24 v (by omega) hs, rfl, ?_, ?_, ?_⟩
  · show get 5 (insertFromBack 5 24 v i).1 i = get 5 v 23
    rw [get_insertFromBack params24 v (by omega) (by omega) hs]; simp
  · intro k hk
    show get 5 (insertFromBack 5 24 v i).1 k = _
    rw [get_insertFromBack params24 v (by omega) (by omega) hs, if_pos hk]
  · intro k hk hk2
    show get 5 (insertFromBack 5 24 v i).1 (k + 1) = _
    rw [get_insertFromBack params24 v (by omega) (by omega) hs, if_neg (by omega),
      if_neg (by omega)]; rfl

/-- `set` replaces one position and leaves the others and the size alone. -/
theorem C15_set (v : BitVec 128) (i slot : Nat) (hi : i < 24) (hslot : slot < 24) :
    size 5 (set 5 v i slot) = size 5 v ∧
    ∀ k, k < 24 → get 5 (set 5 v i slot) k = if k = i then slot else get 5 v k :=
  ⟨size_set params24 v hi, fun _ hk => get_set params24 v hi hk (by omega)⟩

example : (PermOp.insertFromBack 1).Legal 24 (toSpec 5 24 (makeSorted24 7)) := by
  simp only [PermOp.Legal]
  decide +kernel

/-! ## C16 -/

/-- **C16** (constructors). -/
theorem C16_constructors (W : Nat) (h1 : 1 ≤ W) (h15 : W ≤ 15) :
    toSpec 4 W (initial 64 4 W) = PermList.empty W ∧
    ∀ n, n ≤ W → toSpec 4 W (makeSorted64 W n) = PermList.sorted W n := by
  have h : ∀ W, W < 16 → toSpec 4 W (initial 64 4 W) = PermList.empty W ∧
    ∀ n, n < W + 1 → toSpec 4 W (makeSorted64 W n) = PermList.sorted W n := by decide +kernel
  exact ⟨(h W (by omega)).1, fun n hn => (h W (by omega)).2 n (by omega)⟩

/-- **C16** (operations). -/
theorem C16_operations_refine (W : Nat) (h1 : 1 ≤ W) (h15 : W ≤ 15) (v : BitVec 64)
    (hv : size 4 v ≤ W) (op : PermOp) (hl : op.Legal W (toSpec 4 W v)) :
    toSpec 4 W (runOp 4 W v op) = op.apply W (toSpec 4 W v) :=
  runOp_refines (params64 h1 h15) v hv op hl

/-- **C16** (validity over any legal sequence, for every width 1..15). -/
theorem C16_permutation_preserved (W : Nat) (h1 : 1 ≤ W) (h15 : W ≤ 15) (ops : List PermOp)
    (v : BitVec 64)
    (hv : v = initial 64 4 W ∨ ∃ n, n ≤ W ∧ v = makeSorted64 W n)
    (hl : LegalRun W (toSpec 4 W v) ops) :
    toSpec 4 W (runAll 4 W v ops) = applyAll W (toSpec 4 W v) ops ∧
    (toSpec 4 W (runAll 4 W v ops)).Valid W := by
  have hval : (toSpec 4 W v).Valid W := by
    rcases hv with rfl | ⟨n, hn, rfl⟩
    · rw [(C16_constructors W h1 h15).1]; exact empty_valid W
    · rw [(C16_constructors W h1 h15).2 n hn]; exact sorted_valid hn
  have h := runAll_refines (params64 h1 h15) ops v hval hl
  exact ⟨h, h ▸ LegalRun_valid h1 ops _ hval hl⟩

example : LegalRun 7 (toSpec 4 7 (makeSorted64 7 3))
    [.insertFromBack 2, .remove 0, .rotate 1 5, .removeToBack 0] := by
  rw [(C16_constructors 7 (by decide) (by decide)).2 3 (by decide)]
  simp only [LegalRun, PermOp.Legal]
  decide +kernel

end Verif.Perm

/-! ## C17 -/
namespace Verif.Freeze
open Verif.Perm

theorem getLsbD_mask24 (j : Nat) : mask24.getLsbD j = decide (120 ≤ j ∧ j < 125) := by
  rcases Nat.lt_or_ge j 128 with h | h
  · have : ∀ j, j < 128 → mask24.getLsbD j = decide (120 ≤ j ∧ j < 125) := by decide +kernel
    exact this j h
  · rw [BitVec.getLsbD_of_ge _ _ h]; symm; simp; omega

theorem isFrozen_iff (raw : BitVec 128) : isFrozen raw = true ↔ get 5 raw 23 = 31 := by
  have hs : sentinel24 = mask24 := rfl
  unfold isFrozen
  rw [beq_iff_eq, hs]
  constructor
  · intro h
    apply Nat.eq_of_testBit_eq
    intro b
    rw [testBit_get (by decide)]
    by_cases hb : b < 5
    · have := congrArg (fun w => BitVec.getLsbD w (120 + b)) h
      simp only [BitVec.getLsbD_and, getLsbD_mask24] at this
      have e : (120 ≤ 120 + b ∧ 120 + b < 125) := by omega
      rw [decide_eq_true e, Bool.and_true] at this
      have e31 : Nat.testBit 31 b = true := by
        have h31 : (31 : Nat) = 2 ^ 5 - 1 := by decide
        rw [h31, Nat.testBit_two_pow_sub_one]; simp [hb]
      rw [e31]
      simp only [hb, decide_true, Bool.true_and]
      exact this
    · have h31 : (31 : Nat) = 2 ^ 5 - 1 := by decide
      rw [h31, Nat.testBit_two_pow_sub_one]; simp [hb]
  · intro h
    apply BitVec.eq_of_getLsbD_eq
    intro j hj
    rw [BitVec.getLsbD_and, getLsbD_mask24]
    by_cases hc : 120 ≤ j ∧ j < 125
    · rw [decide_eq_true hc, Bool.and_true]
      have h2 := testBit_get (N := 128) (B := 5) (by decide) raw 23 (j - 120)
      have e1 : j - 120 < 5 := by omega
      have e2 : shiftOf 5 23 + (j - 120) = j := by unfold shiftOf; omega
      rw [h, e2] at h2
      have h31 : (31 : Nat) = 2 ^ 5 - 1 := by decide
      rw [h31, Nat.testBit_two_pow_sub_one] at h2
      simpa [e1] using h2.symm
    · rw [decide_eq_false hc, Bool.and_false]

/-- **C17.** A word holding a permutation of the 24 slots never looks frozen. -/
theorem C17_valid_not_frozen (raw : BitVec 128) (h : (toSpec 5 24 raw).Valid 24) :
    isFrozen raw = false := by
  rcases hb : isFrozen raw with _ | _
  · rfl
  · have h31 := (isFrozen_iff raw).mp hb
    have hm : get 5 raw 23 ∈ (toSpec 5 24 raw).slots :=
      List.mem_of_getElem? (getElem?_toSpec (B := 5) (W := 24) raw (by decide))
    have := List.mem_range.mp (h.1.mem_iff.mp hm)
    omega

/-- **C17.** A frozen word is recognised; freezing keeps the size and all positions but the last;
and a frozen word does not denote a valid permutation. -/
theorem C17_freeze (raw : BitVec 128) :
    isFrozen (freezeRaw raw) = true ∧ size 5 (freezeRaw raw) = size 5 raw ∧
    (∀ i, i < 23 → get 5 (freezeRaw raw) i = get 5 raw i) ∧
    ¬ (toSpec 5 24 (freezeRaw raw)).Valid 24 := by
  have hbit : ∀ j, (freezeRaw raw).getLsbD j = ((raw.getLsbD j && decide (j < 128)) && !decide (120 ≤ j ∧ j < 125)
      || decide (120 ≤ j ∧ j < 125)) := by
    intro j
    have hs : sentinel24 = mask24 := rfl
    rw [freezeRaw, hs, BitVec.getLsbD_or, BitVec.getLsbD_and, BitVec.getLsbD_not, getLsbD_mask24,
      Bool.and_assoc]
  have hf : isFrozen (freezeRaw raw) = true := by
    rw [isFrozen_iff]
    apply Nat.eq_of_testBit_eq
    intro b
    have h31 : (31 : Nat) = 2 ^ 5 - 1 := by decide
    rw [testBit_get (by decide), hbit, h31, Nat.testBit_two_pow_sub_one]
    by_cases hb : b < 5
    · have : 120 ≤ shiftOf 5 23 + b ∧ shiftOf 5 23 + b < 125 := by unfold shiftOf; omega
      simp [hb, this]
    · simp [hb]
  refine ⟨hf, ?_, ?_, ?_⟩
  · apply size_congr (by decide)
    intro b hb
    rw [hbit]
    have e : ¬ (120 ≤ b ∧ b < 125) := by omega
    have e2 : b < 128 := by omega
    rw [decide_eq_false e, decide_eq_true e2]; simp
  · intro i hi
    apply get_congr (by decide)
    intro b hb
    rw [hbit]
    have e : ¬ (120 ≤ shiftOf 5 i + b ∧ shiftOf 5 i + b < 125) := by unfold shiftOf; omega
    have e2 : shiftOf 5 i + b < 128 := by unfold shiftOf; omega
    rw [decide_eq_false e, decide_eq_true e2]; simp
  · intro hv
    rw [C17_valid_not_frozen _ hv] at hf
    exact absurd hf (by decide)

/-- **C17.** Unfreezing with the saved top slot restores the word exactly. -/
theorem C17_unfreeze_roundtrip (raw : BitVec 128) :
    unfreezeRaw (freezeRaw raw) (getSlot23 raw) = raw := by
  apply BitVec.eq_of_getLsbD_eq
  intro j hj
  have hs : sentinel24 = mask24 := rfl
  have h1F : ∀ j, (0x1F#128).getLsbD j = decide (j < 5) := by
    intro j
    rcases Nat.lt_or_ge j 128 with h | h
    · have : ∀ j, j < 128 → (0x1F#128).getLsbD j = decide (j < 5) := by decide +kernel
      exact this j h
    · rw [BitVec.getLsbD_of_ge _ _ h]; symm; simp; omega
  simp only [unfreezeRaw, freezeRaw, getSlot23, hs, BitVec.getLsbD_or, BitVec.getLsbD_and,
    BitVec.getLsbD_not, getLsbD_mask24, BitVec.getLsbD_shiftLeft, BitVec.getLsbD_ushiftRight, h1F]
  by_cases hc : 120 ≤ j ∧ j < 125
  · have e1 : ¬ (j < shift24) := by unfold shift24; omega
    have e2 : shift24 + (j - shift24) = j := by unfold shift24; omega
    have e3 : j - shift24 < 5 := by unfold shift24; omega
    rw [decide_eq_true hc, e2]
    simp only [decide_eq_true hj, decide_eq_false e1, decide_eq_true e3]
    simp
  · rw [decide_eq_false hc]
    by_cases h120 : j < shift24
    · simp [hj, h120]
    · have e3 : ¬ (j - shift24 < 5) := by unfold shift24 at *; omega
      simp only [decide_eq_true hj, decide_eq_false e3]
      simp

example : (toSpec 5 24 (makeSorted24 3)).Valid 24 := by
  rw [C14_constructors.2 3 (by decide)]; exact sorted_valid (by decide)

/-- In the 15-slot permuter the freeze marker sits on logical position 13, not on position 14
as its comment says; freezing overwrites that position only. -/
theorem C17_freeze64_position (raw : BitVec 64) :
    isFrozenRaw64 (freezeRaw64 raw) = true ∧ get 4 (freezeRaw64 raw) 13 = 15 ∧
    (∀ i, i < 15 → i ≠ 13 → get 4 (freezeRaw64 raw) i = get 4 raw i) ∧
    size 4 (freezeRaw64 raw) = size 4 raw := by
  have hF : ∀ j, (0xF#64 <<< (14 * 4)).getLsbD j = decide (56 ≤ j ∧ j < 60) := by
    intro j
    rcases Nat.lt_or_ge j 64 with h | h
    · have : ∀ j, j < 64 → (0xF#64 <<< (14 * 4)).getLsbD j = decide (56 ≤ j ∧ j < 60) := by
        decide +kernel
      exact this j h
    · rw [BitVec.getLsbD_of_ge _ _ h]; symm; simp; omega
  have hbit : ∀ j, (freezeRaw64 raw).getLsbD j =
      ((raw.getLsbD j && decide (j < 64)) && !decide (56 ≤ j ∧ j < 60)
      || decide (56 ≤ j ∧ j < 60)) := by
    intro j
    rw [freezeRaw64, BitVec.getLsbD_or, BitVec.getLsbD_and, BitVec.getLsbD_not, hF, Bool.and_assoc]
  have h13 : get 4 (freezeRaw64 raw) 13 = 15 := by
    apply Nat.eq_of_testBit_eq
    intro b
    have h31 : (15 : Nat) = 2 ^ 4 - 1 := by decide
    rw [testBit_get (by decide), hbit, h31, Nat.testBit_two_pow_sub_one]
    by_cases hb : b < 4
    · have : 56 ≤ shiftOf 4 13 + b ∧ shiftOf 4 13 + b < 60 := by unfold shiftOf; omega
      simp [hb, this]
    · simp [hb]
  refine ⟨?_, h13, ?_, ?_⟩
  · unfold isFrozenRaw64
    rw [beq_iff_eq]
    apply BitVec.eq_of_toNat_eq
    exact h13
  · intro i hi hne
    apply get_congr (by decide)
    intro b hb
    rw [hbit]
    have e : ¬ (56 ≤ shiftOf 4 i + b ∧ shiftOf 4 i + b < 60) := by unfold shiftOf; omega
    have e2 : shiftOf 4 i + b < 64 := by unfold shiftOf; omega
    rw [decide_eq_false e, decide_eq_true e2]; simp
  · apply size_congr (by decide)
    intro b hb
    rw [hbit]
    have e : ¬ (56 ≤ b ∧ b < 60) := by omega
    have e2 : b < 64 := by omega
    rw [decide_eq_false e, decide_eq_true e2]; simp

end Verif.Freeze
