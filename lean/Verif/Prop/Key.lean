import Verif.Proof.Key
set_option linter.unusedSimpArgs false
set_option linter.unusedVariables false
/-!
Properties C10 (key construction part), C11, C12, C13.
-/
namespace Verif.Key
open Verif.Spec

/-- Chunk-wise comparison of two cursors, the way layer creation uses it
(generic.rs:2229-2290): compare the current chunk and length; while they tie and both keys
go on, move both cursors one chunk further. -/
def walkCompare (a b : Key) : Ordering :=
  match a.compare b.ikey b.currentLen with
  | .eq => if _h : a.hasSuffix ∧ b.hasSuffix then walkCompare a.shift b.shift else .eq
  | o => o
termination_by a.currentLen
decreasing_by
  have h1 : 8 < a.currentLen := of_decide_eq_true _h.1
  simp only [currentLen, shift, ikeySize] at h1 ⊢
  omega

theorem walkCompare_at (m : Nat) : ∀ (a b : Key) (da db : Bytes) (n : Nat), a.At da n → b.At db n →
    (da.drop (8 * n)).length ≤ m →
    walkCompare a b = byteCmp (da.drop (8 * n)) (db.drop (8 * n)) := by
  induction m with
  | zero =>
    intro a b da db n ha hb hm
    rw [walkCompare, hb.ikey_eq, hb.currentLen, ha.compare _ _ (Or.inl rfl), ha.hasSuffix,
      byteCmp_chunk (da.drop (8 * n))]
    have h1 : ¬ 8 < (da.drop (8 * n)).length := by omega
    simp only [h1, false_and, if_false, decide_false]
    cases ((Ord.compare (chunk (da.drop (8 * n))) (chunk (db.drop (8 * n)))).then
      (Ord.compare (da.drop (8 * n)).length (db.drop (8 * n)).length)) <;> simp
  | succ m ih =>
    intro a b da db n ha hb hm
    rw [walkCompare, hb.ikey_eq, hb.currentLen, ha.compare _ _ (Or.inl rfl), ha.hasSuffix,
      hb.hasSuffix, byteCmp_chunk (da.drop (8 * n))]
    by_cases h : 8 < (da.drop (8 * n)).length ∧ 8 < (db.drop (8 * n)).length
    · have hs := ih a.shift b.shift da db (n + 1) ha.shift hb.shift (by
        simp only [List.length_drop] at *; omega)
      have e : 8 * (n + 1) = 8 * n + 8 := by omega
      rw [e, ← List.drop_drop, ← List.drop_drop] at hs
      simp only [h, true_and, and_self, if_true, decide_true]
      rw [hs]
      cases Ord.compare (chunk (da.drop (8 * n))) (chunk (db.drop (8 * n))) <;> simp [Ordering.then]
    · have h' : ¬ (decide (8 < (da.drop (8 * n)).length) = true ∧
          decide (8 < (db.drop (8 * n)).length) = true) := by simpa using h
      simp only [h, if_false, h', dite_false]
      cases ((Ord.compare (chunk (da.drop (8 * n))) (chunk (db.drop (8 * n)))).then
        (Ord.compare (da.drop (8 * n)).length (db.drop (8 * n)).length)) <;> simp

/-- **C11.** Walking two keys chunk by chunk orders them exactly as their byte strings. -/
theorem C11_chunk_order_is_byte_order (a b : Bytes) :
    walkCompare (mk' a) (mk' b) = byteCmp a b := by
  simpa using walkCompare_at a.length (mk' a) (mk' b) a b 0 (mk'_at a) (mk'_at b) (by simp)

/-- **C11.** Front chunks compare as the byte strings do, whenever they differ. -/
theorem C11_chunk_decides (a b : Bytes) (h : (mk' a).ikey ≠ (mk' b).ikey) :
    byteCmp a b = Ord.compare (mk' a).ikey (mk' b).ikey := by
  rw [(mk'_at a).ikey_eq, (mk'_at b).ikey_eq] at *
  simp only [Nat.mul_zero, List.drop_zero] at *
  rw [byteCmp_chunk]
  have : Ord.compare (chunk a) (chunk b) ≠ .eq := by simpa using h
  revert this
  cases Ord.compare (chunk a) (chunk b) <;> simp [Ordering.then]

/-- **C11.** Equal chunk, equal length class and equal rest mean equal keys. -/
theorem C11_chunks_determine (a b : Bytes) (hi : (mk' a).ikey = (mk' b).ikey)
    (hc : lenClass a = lenClass b) (hs : (mk' a).suffix = (mk' b).suffix) : a = b := by
  rw [(mk'_at a).ikey_eq, (mk'_at b).ikey_eq] at hi
  rw [(mk'_at a).suffix, (mk'_at b).suffix] at hs
  simp only [Nat.mul_zero, List.drop_zero, lenClass] at *
  by_cases h : 8 < a.length
  · exact eq_of_chunk_eq_long a b h (by omega) hi hs
  · exact eq_of_chunk_eq_short a b (by omega) (by omega) hi

/-- Two keys that differ only past the first chunk, and two that differ by a trailing zero. -/
example : byteCmp [1, 2, 3] [1, 2, 3, 0] = .lt ∧ (mk' [1, 2, 3]).ikey = (mk' [1, 2, 3, 0]).ikey ∧
    walkCompare (mk' [1, 2, 3]) (mk' [1, 2, 3, 0]) = .lt := by
  refine ⟨by decide, by decide, ?_⟩
  rw [C11_chunk_order_is_byte_order]; decide

/-- **C12.** After `n` shifts the cursor shows exactly the bytes from `8n` on. -/
theorem C12_shift_shows_rest (d : Bytes) (n : Nat) :
    let k := shiftTimes n (mk' d)
    k.data = d ∧ k.shiftCount = n ∧ k.ikey = chunk (d.drop (8 * n)) ∧
    k.currentLen = (d.drop (8 * n)).length ∧
    (k.hasSuffix = true ↔ 8 < (d.drop (8 * n)).length) ∧
    k.suffix = d.drop (8 * n + 8) ∧ k.suffixLen = d.length - (8 * n + 8) := by
  have h := (mk'_at d).shiftTimes n
  rw [Nat.zero_add] at h
  refine ⟨h.data_eq, h.shiftCount_eq, h.ikey_eq, h.currentLen, ?_, ?_, ?_⟩
  · rw [h.hasSuffix]; simp
  · rw [h.suffix, List.drop_drop]
  · rw [suffixLen, h.data_eq, h.suffixStart_eq]; omega

/-- **C12.** `shift_by(8 n)` is `n` shifts. -/
theorem C12_shift_by (d : Bytes) (n : Nat) (k : Key) : shiftBy (8 * n) k = shiftTimes n k := by
  rw [shiftBy, ikeySize, Nat.mul_div_cancel_left _ (by omega)]

/-- **C12.** `unshift` undoes `shift`, from any cursor position. -/
theorem C12_unshift_shift (d : Bytes) (n : Nat) :
    ((shiftTimes n (mk' d)).shift).unshift = shiftTimes n (mk' d) := by
  have h := (mk'_at d).shiftTimes n
  exact h.shift.unshift.unique h

/-- **C12.** `unshift_all` restores the freshly built key. -/
theorem C12_unshift_all (d : Bytes) (n : Nat) : (shiftTimes n (mk' d)).unshiftAll = mk' d :=
  ((mk'_at d).shiftTimes n).unshiftAll

/-- **C12.** The chunks and the final remainder reassemble the key: nothing is lost. Two keys
with the same chunk and the same remaining length at every shift are equal. -/
theorem C12_lossless (a b : Bytes)
    (h : ∀ n, (shiftTimes n (mk' a)).ikey = (shiftTimes n (mk' b)).ikey ∧
      (shiftTimes n (mk' a)).currentLen = (shiftTimes n (mk' b)).currentLen) : a = b := by
  have main : ∀ (m : Nat) (a b : Bytes), a.length ≤ m → a.length = b.length →
      (∀ n, chunk (a.drop (8 * n)) = chunk (b.drop (8 * n))) → a = b := by
    intro m
    induction m with
    | zero =>
      intro a b hm hl _
      have h1 : a = [] := List.length_eq_zero_iff.1 (by omega)
      have h2 : b = [] := List.length_eq_zero_iff.1 (by omega)
      rw [h1, h2]
    | succ m ih =>
      intro a b hm hl hc
      have h0 : chunk a = chunk b := by simpa using hc 0
      by_cases h8 : 8 < a.length
      · refine eq_of_chunk_eq_long a b h8 (by omega) h0 ?_
        refine ih _ _ (by simp; omega) (by simp; omega) ?_
        intro n
        have := hc (n + 1)
        rw [List.drop_drop, List.drop_drop]
        rwa [show 8 + 8 * n = 8 * (n + 1) by omega]
      · exact eq_of_chunk_eq_short a b (by omega) hl h0
  refine main a.length a b (Nat.le_refl _) ?_ ?_
  · have := (h 0).2
    rw [((mk'_at a).shiftTimes 0).currentLen, ((mk'_at b).shiftTimes 0).currentLen] at this
    simpa using this
  · intro n
    have := (h n).1
    rw [((mk'_at a).shiftTimes n).ikey_eq, ((mk'_at b).shiftTimes n).ikey_eq] at this
    simpa using this

example : (shiftTimes 1 (mk' [104, 101, 108, 108, 111, 32, 119, 111, 114, 108, 100])).suffix = [] ∧
    (shiftTimes 1 (mk' [104, 101, 108, 108, 111, 32, 119, 111, 114, 108, 100])).currentLen = 3 := by
  decide

/-- **C13.** `compare` of a cursor at chunk `n` of `d` against the chunk and stored length of a
string `s` (stored length: the exact length if at most 8, any larger number otherwise):
* `Less` / `Greater` only if the remaining bytes are smaller / greater than `s`;
* `Equal` exactly if the remaining bytes equal `s`, or both are longer than eight bytes and
  agree on the first eight. -/
theorem C13_compare_consistent (d : Bytes) (n : Nat) (s : Bytes) (klx : Nat)
    (hk : klx = s.length ∨ (8 < klx ∧ 8 < s.length)) :
    let r := d.drop (8 * n)
    let c := (shiftTimes n (mk' d)).compare (mk' s).ikey klx
    (c = .lt → byteCmp r s = .lt) ∧ (c = .gt → byteCmp r s = .gt) ∧
    (c = .eq ↔ r = s ∨ (8 < r.length ∧ 8 < s.length ∧ r.take 8 = s.take 8)) := by
  have h := (mk'_at d).shiftTimes n
  rw [Nat.zero_add] at h
  simp only
  rw [(mk'_at s).ikey_eq, Nat.mul_zero, List.drop_zero, h.compare s klx hk]
  generalize d.drop (8 * n) = r
  rw [byteCmp_chunk r s]
  have key : chunk r = chunk s → 8 < r.length → 8 < s.length → r.take 8 = s.take 8 :=
    fun e h1 h2 => take_eq_of_chunk_eq r s (by omega) (by omega) e
  have key2 : r.take 8 = s.take 8 → 8 < r.length → 8 < s.length → chunk r = chunk s := by
    intro e h1 h2
    rw [← chunk_take r (by omega), ← chunk_take s (by omega), e]
  have short : chunk r = chunk s → ¬ (8 < r.length ∧ 8 < s.length) → r.length = s.length → r = s :=
    fun e h1 h2 => eq_of_chunk_eq_short r s (by omega) h2 e
  refine ⟨?_, ?_, ?_⟩
  · cases Ord.compare (chunk r) (chunk s) <;> simp only [Ordering.then] <;>
      first
      | (intro h; exact h)
      | (split <;> simp)
  · cases Ord.compare (chunk r) (chunk s) <;> simp only [Ordering.then] <;>
      first
      | (intro h; exact h)
      | (split <;> simp)
  · rw [Ordering.then_eq_eq, Nat.compare_eq_eq]
    constructor
    · rintro ⟨h1, h2⟩
      by_cases h3 : 8 < r.length ∧ 8 < s.length
      · exact Or.inr ⟨h3.1, h3.2, key h1 h3.1 h3.2⟩
      · rw [if_neg h3, Nat.compare_eq_eq] at h2
        exact Or.inl (short h1 h3 h2)
    · rintro (h1 | ⟨h1, h2, h3⟩)
      · subst h1; simp
      · exact ⟨key2 h3 h1 h2, by simp [h1, h2]⟩

/-- `compare_ikey` is the integer comparison. -/
theorem C13_compare_ikey (a b : Nat) : compareIkey a b = Ord.compare a b := by
  rw [compareIkey, Nat.compare_eq_ite_lt]

example : (mk' [1, 2, 3, 4, 5, 6, 7, 8, 9]).compare (mk' [1, 2, 3, 4, 5, 6, 7, 8]).ikey 8 = .gt ∧
    (mk' [1, 2, 3, 4, 5, 6, 7, 8, 9]).compare (mk' [1, 2, 3, 4, 5, 6, 7, 8, 1]).ikey 64 = .eq := by
  decide

/-- **C10** (key construction). `Key::new` accepts exactly the keys of at most 256 bytes. -/
theorem C10_new_accepts (d : Bytes) : (new? d).isSome ↔ d.length ≤ 256 := by
  unfold new? maxKeyLength; split <;> simp_all

/-- Remaining chunk values always fit in 64 bits (the model's `Nat` loses nothing). -/
theorem C12_ikey_fits (d : Bytes) (n : Nat) : (shiftTimes n (mk' d)).ikey < 2 ^ 64 :=
  ((mk'_at d).shiftTimes n).ikey_lt

/-- **C12.** A key is empty exactly if it has no bytes, wherever the cursor is. -/
theorem C12_is_empty (d : Bytes) (n : Nat) : (shiftTimes n (mk' d)).isEmpty = true ↔ d = [] := by
  have h := (mk'_at d).shiftTimes n
  simp only [isEmpty, h.data_eq, h.ikey_eq, Bool.and_eq_true, List.isEmpty_iff, beq_iff_eq]
  constructor
  · exact fun h => h.2
  · rintro rfl; rw [List.drop_nil]; exact ⟨by decide, rfl⟩

/-- **C12.** A key is shifted exactly if the cursor is not at its beginning, and its length does not depend on the cursor. -/
theorem C12_is_shifted (d : Bytes) (n : Nat) :
    ((shiftTimes n (mk' d)).isShifted = true ↔ 0 < n) ∧ (shiftTimes n (mk' d)).len = d.length := by
  have h := (mk'_at d).shiftTimes n
  rw [Nat.zero_add] at h
  simp [isShifted, len, h.shiftCount_eq, h.data_eq]

theorem trailingZeroBytes_spec : ∀ (f x : Nat), 0 < x → x < 256 ^ f →
    trailingZeroBytes f x < f ∧ 256 ^ trailingZeroBytes f x ∣ x ∧ ¬ 256 ^ (trailingZeroBytes f x + 1) ∣ x := by
  intro f
  induction f with
  | zero => intro x h1 h2; simp at h2; omega
  | succ f ih =>
    intro x h1 h2
    by_cases e : x % 256 = 0
    · obtain ⟨a, b, c⟩ := ih (x / 256) (by omega) (by rw [Nat.pow_succ] at h2; omega)
      simp only [trailingZeroBytes, if_pos e]
      have hx : x = 256 * (x / 256) := by omega
      refine ⟨by omega, ?_, ?_⟩
      · rw [Nat.pow_succ, Nat.mul_comm]
        conv => rhs; rw [hx]
        exact Nat.mul_dvd_mul_left _ b
      · rw [Nat.pow_succ, Nat.mul_comm]
        intro h
        rw [hx] at h
        have := Nat.dvd_of_mul_dvd_mul_left (by omega : 0 < 256) h
        rw [show 256 * (x / 256) / 256 = x / 256 by omega] at this
        exact c this
    · simp only [trailingZeroBytes, if_neg e]
      exact ⟨by omega, by simp, by simp only [Nat.zero_add, Nat.pow_one]; omega⟩

/-- **C12.** A key made from a chunk counts the chunk's bytes without the zero bytes at its end, and has nothing after the chunk. -/
theorem C12_from_ikey (x : Nat) (hx : x < 2 ^ 64) :
    (fromIkey x).ikey = x ∧ (fromIkey x).suffix = [] ∧ (fromIkey x).hasSuffix = false ∧ (fromIkey x).suffixStart ≤ 8 ∧
    ((fromIkey x).suffixStart = 0 ↔ x = 0) ∧
    (0 < x → 256 ^ (8 - (fromIkey x).suffixStart) ∣ x ∧ ¬ 256 ^ (9 - (fromIkey x).suffixStart) ∣ x) := by
  by_cases e : x = 0
  · subst e; decide
  · obtain ⟨a, b, c⟩ := trailingZeroBytes_spec 8 x (by omega) (by simpa using hx)
    have hs : (fromIkey x).suffixStart = 8 - trailingZeroBytes 8 x := by simp [fromIkey, e]
    refine ⟨rfl, by simp [fromIkey, suffix], rfl, by omega, by omega, fun _ => ?_⟩
    rw [hs, show 8 - (8 - trailingZeroBytes 8 x) = trailingZeroBytes 8 x by omega,
      show 9 - (8 - trailingZeroBytes 8 x) = trailingZeroBytes 8 x + 1 by omega]
    exact ⟨b, c⟩

example : (fromIkey 0x6162630000000000).suffixStart = 3 ∧ (fromIkey 0x6100630000000000).suffixStart = 3 ∧
    (fromIkey 0x61).suffixStart = 8 := by decide

end Verif.Key
