import Verif.Model.Key
set_option linter.unusedSimpArgs false
set_option linter.unusedVariables false
/-! Lemmas about byte strings, chunks and the `Key` cursor. -/
namespace Verif.Spec

@[simp] theorem length_padTake (n : Nat) (a : Bytes) : (padTake n a).length = n := by
  induction n generalizing a with
  | zero => rfl
  | succ n ih => cases a <;> simp [padTake, ih]

theorem beNat_lt (a : Bytes) : beNat a < 256 ^ a.length := by
  induction a with
  | nil => simp [beNat]
  | cons x xs ih =>
    have hx : x.toNat < 256 := x.toNat_lt
    simp only [beNat, List.length_cons, Nat.pow_succ]
    have : (x.toNat + 1) * 256 ^ xs.length ≤ 256 * 256 ^ xs.length :=
      Nat.mul_le_mul_right _ hx
    rw [Nat.succ_mul] at this
    omega

theorem chunk_lt (a : Bytes) : chunk a < 2 ^ 64 := by
  have := beNat_lt (padTake 8 a)
  simpa [chunk] using this

theorem byteCmp_self (a : Bytes) : byteCmp a a = .eq := by
  induction a with
  | nil => rfl
  | cons x xs ih => simp [byteCmp, ih]

theorem byteCmp_eq_iff (a b : Bytes) : byteCmp a b = .eq ↔ a = b := by
  induction a generalizing b with
  | nil => cases b <;> simp [byteCmp]
  | cons x xs ih =>
    cases b with
    | nil => simp [byteCmp]
    | cons y ys =>
      simp [byteCmp, Ordering.then_eq_eq, ih, UInt8.toNat_inj]

/-- Big-endian values of strings of equal length compare as the strings do. -/
theorem compare_beNat (a b : Bytes) (h : a.length = b.length) :
    compare (beNat a) (beNat b) = byteCmp a b := by
  induction a generalizing b with
  | nil => cases b <;> simp_all [byteCmp, beNat]
  | cons x xs ih =>
    cases b with
    | nil => simp at h
    | cons y ys =>
      have hl : xs.length = ys.length := by simpa using h
      have ih := ih ys hl
      have h1 := beNat_lt xs
      have h2 := beNat_lt ys
      simp only [beNat, byteCmp]
      rw [← ih, ← hl]
      rw [← hl] at h2
      generalize 256 ^ xs.length = M at *
      rcases Nat.lt_trichotomy x.toNat y.toNat with hc | hc | hc
      · have : (x.toNat + 1) * M ≤ y.toNat * M := Nat.mul_le_mul_right _ hc
        rw [Nat.succ_mul] at this
        rw [Nat.compare_eq_lt.2 hc, Nat.compare_eq_lt.2 (by omega)]; rfl
      · rw [hc]
        rw [Nat.compare_eq_eq.2 rfl]
        simp only [Ordering.then]
        simp only [Nat.compare_eq_ite_lt]
        simp
      · have : (y.toNat + 1) * M ≤ x.toNat * M := Nat.mul_le_mul_right _ hc
        rw [Nat.succ_mul] at this
        rw [Nat.compare_eq_gt.2 hc, Nat.compare_eq_gt.2 (by omega)]; rfl

theorem byteCmp_nil_left (b : Bytes) : byteCmp [] b = compare 0 b.length := by
  cases b with
  | nil => rfl
  | cons y ys => simp only [byteCmp, List.length_cons]; symm; exact Nat.compare_eq_lt.2 (by omega)

theorem byteCmp_nil_right (b : Bytes) : byteCmp b [] = compare b.length 0 := by
  cases b with
  | nil => rfl
  | cons y ys => simp only [byteCmp, List.length_cons]; symm; exact Nat.compare_eq_gt.2 (by omega)

theorem byteCmp_padTake_nil (n : Nat) (b : Bytes) : byteCmp (padTake n []) (padTake n b) ≠ .gt := by
  induction n generalizing b with
  | zero => simp [padTake, byteCmp]
  | succ n ih =>
    cases b with
    | nil => simp [padTake, byteCmp, byteCmp_self]
    | cons y ys =>
      simp only [padTake, byteCmp]
      have : compare (0 : UInt8).toNat y.toNat ≠ .gt := by
        rw [Ne, Nat.compare_eq_gt]; simp
      revert this
      cases compare (0 : UInt8).toNat y.toNat <;> simp [ih]

theorem byteCmp_swap (a b : Bytes) : (byteCmp a b).swap = byteCmp b a := by
  induction a generalizing b with
  | nil => cases b <;> rfl
  | cons x xs ih =>
    cases b with
    | nil => rfl
    | cons y ys =>
      simp only [byteCmp, Ordering.swap_then, ih, Nat.compare_swap]

/-- Lexicographic order decomposed at a zero-padded front of `n` bytes. -/
theorem byteCmp_padTake (n : Nat) (a b : Bytes) :
    byteCmp a b = (byteCmp (padTake n a) (padTake n b)).then
      (if n < a.length ∧ n < b.length then byteCmp (a.drop n) (b.drop n)
       else compare a.length b.length) := by
  induction n generalizing a b with
  | zero =>
    cases a with
    | nil => simp [padTake, byteCmp_nil_left, byteCmp_self]
    | cons x xs =>
      cases b with
      | nil => simp [padTake, byteCmp_nil_right, byteCmp_self]
      | cons y ys => simp [padTake, byteCmp_self]
  | succ n ih =>
    cases a with
    | nil =>
      cases b with
      | nil => simp [byteCmp_self, byteCmp]
      | cons y ys =>
        have h := byteCmp_padTake_nil (n + 1) (y :: ys)
        have h2 : compare 0 (ys.length + 1) = Ordering.lt := Nat.compare_eq_lt.2 (by omega)
        revert h
        simp only [byteCmp, List.length_nil, Nat.not_lt_zero, false_and, if_false, h2,
          List.length_cons]
        cases byteCmp (padTake (n + 1) []) (padTake (n + 1) (y :: ys)) <;> simp [Ordering.then]
    | cons x xs =>
      cases b with
      | nil =>
        have h := byteCmp_padTake_nil (n + 1) (x :: xs)
        rw [← byteCmp_swap] at h
        have h2 : compare (xs.length + 1) 0 = Ordering.gt := Nat.compare_eq_gt.2 (by omega)
        revert h
        simp only [byteCmp, List.length_nil, Nat.not_lt_zero, and_false, if_false, h2,
          List.length_cons]
        cases byteCmp (padTake (n + 1) (x :: xs)) (padTake (n + 1) []) <;> simp [Ordering.then]
      | cons y ys =>
        simp only [byteCmp, padTake, List.length_cons, List.drop_succ_cons,
          Nat.add_lt_add_iff_right]
        rw [ih xs ys, Ordering.then_assoc]
        congr 2
        simp only [Nat.compare_eq_ite_lt]
        simp

/-- Lexicographic order by front chunk, then by rest or length class. -/
theorem byteCmp_chunk (a b : Bytes) :
    byteCmp a b = (compare (chunk a) (chunk b)).then
      (if 8 < a.length ∧ 8 < b.length then byteCmp (a.drop 8) (b.drop 8)
       else compare a.length b.length) := by
  rw [byteCmp_padTake 8 a b, chunk, chunk, compare_beNat _ _ (by simp)]

theorem padTake_of_le (n : Nat) (a : Bytes) (h : n ≤ a.length) : padTake n a = a.take n := by
  induction n generalizing a with
  | zero => simp [padTake]
  | succ n ih =>
    cases a with
    | nil => simp at h
    | cons x xs => simp [padTake, ih xs (by simpa using h)]

theorem beNat_inj (a b : Bytes) (h : a.length = b.length) (e : beNat a = beNat b) : a = b := by
  rw [← byteCmp_eq_iff, ← compare_beNat a b h, e]; simp

/-- Equal chunks with more than eight (or exactly eight) bytes on both sides: equal bytes. -/
theorem take_eq_of_chunk_eq (a b : Bytes) (ha : 8 ≤ a.length) (hb : 8 ≤ b.length)
    (h : chunk a = chunk b) : a.take 8 = b.take 8 := by
  have := beNat_inj (padTake 8 a) (padTake 8 b) (by simp) h
  rwa [padTake_of_le 8 a ha, padTake_of_le 8 b hb] at this

theorem chunk_take (a : Bytes) (h : 8 ≤ a.length) : chunk (a.take 8) = chunk a := by
  unfold chunk
  rw [padTake_of_le 8 a h, padTake_of_le 8 (a.take 8) (by simp; omega), List.take_take]; simp

/-- Equal chunk and equal length of at most eight: equal strings. -/
theorem eq_of_chunk_eq_short (a b : Bytes) (ha : a.length ≤ 8) (hl : a.length = b.length)
    (h : chunk a = chunk b) : a = b := by
  rw [← byteCmp_eq_iff, byteCmp_chunk, h, hl]
  have : ¬ 8 < b.length := by omega
  simp [this]

theorem eq_of_chunk_eq_long (a b : Bytes) (ha : 8 < a.length) (hb : 8 < b.length)
    (h : chunk a = chunk b) (hd : a.drop 8 = b.drop 8) : a = b := by
  rw [← List.take_append_drop 8 a, ← List.take_append_drop 8 b, hd,
    take_eq_of_chunk_eq a b (by omega) (by omega) h]

theorem padTake_eq_append (n : Nat) (a : Bytes) (h : a.length ≤ n) :
    padTake n a = a ++ List.replicate (n - a.length) 0 := by
  induction n generalizing a with
  | zero =>
    have : a = [] := List.length_eq_zero_iff.1 (by omega)
    subst this; simp [padTake]
  | succ n ih =>
    cases a with
    | nil =>
      have := ih [] (by simp)
      simp [padTake, this, List.replicate_succ]
    | cons x xs => simp [padTake, ih xs (by simpa using h)]

end Verif.Spec

namespace Verif.Key
open Verif.Spec

theorem fromBeBytes_acc (bs : Bytes) (acc : Nat) :
    bs.foldl (fun acc b => acc * 256 + b.toNat) acc = acc * 256 ^ bs.length + beNat bs := by
  induction bs generalizing acc with
  | nil => simp [beNat]
  | cons x xs ih =>
    simp only [List.foldl_cons, ih, beNat, List.length_cons, Nat.pow_succ]
    rw [Nat.add_mul, Nat.mul_assoc, Nat.mul_comm 256]; omega

theorem fromBeBytes_eq (bs : Bytes) : fromBeBytes bs = beNat bs := by
  rw [fromBeBytes, fromBeBytes_acc]; simp

/-- `read_ikey` reads the zero-padded chunk at the offset. -/
theorem readIkey_eq (data : Bytes) (offset : Nat) :
    readIkey data offset = chunk (data.drop offset) := by
  unfold readIkey
  split
  · simp only
    split
    · rename_i h; rw [fromBeBytes_eq, chunk, padTake_of_le 8 _ h]
    · rename_i h
      split
      · rename_i h2
        rw [List.isEmpty_iff] at h2
        rw [h2]; decide
      · rw [readIkeySlow, fromBeBytes_eq, chunk, padTake_eq_append 8 _ (by omega)]
  · rename_i h
    rw [List.drop_of_length_le (by omega)]; decide

/-- A key cursor standing at byte `8 * n` of `data`. -/
structure At (k : Key) (data : Bytes) (n : Nat) : Prop where
  data_eq : k.data = data
  shiftCount_eq : k.shiftCount = n
  ikey_eq : k.ikey = chunk (data.drop (8 * n))
  suffixStart_eq : k.suffixStart = min (8 * n + 8) data.length

theorem mk'_at (d : Bytes) : (mk' d).At d 0 := by
  constructor <;> simp [mk', readIkey_eq, ikeySize]

theorem At.shift {k : Key} {d : Bytes} {n : Nat} (h : k.At d n) : k.shift.At d (n + 1) := by
  obtain ⟨h1, h2, h3, h4⟩ := h
  constructor <;> simp [Key.shift, readIkey_eq, ikeySize, h1, h2, Nat.mul_comm, Nat.mul_succ]

theorem At.unique {k k' : Key} {d : Bytes} {n : Nat} (h : k.At d n) (h' : k'.At d n) : k = k' := by
  obtain ⟨h1, h2, h3, h4⟩ := h
  obtain ⟨g1, g2, g3, g4⟩ := h'
  cases k; cases k'; simp_all

theorem At.currentLen {k : Key} {d : Bytes} {n : Nat} (h : k.At d n) :
    k.currentLen = (d.drop (8 * n)).length := by
  simp [Key.currentLen, h.data_eq, h.shiftCount_eq, ikeySize, Nat.mul_comm]

theorem At.hasSuffix {k : Key} {d : Bytes} {n : Nat} (h : k.At d n) :
    k.hasSuffix = decide (8 < (d.drop (8 * n)).length) := by
  rw [Key.hasSuffix, h.currentLen]; rfl

theorem At.suffix {k : Key} {d : Bytes} {n : Nat} (h : k.At d n) :
    k.suffix = (d.drop (8 * n)).drop 8 := by
  rw [Key.suffix, h.suffixStart_eq, h.data_eq, List.drop_drop]
  split
  · rename_i hlt
    congr 1; omega
  · rename_i hlt
    rw [List.drop_of_length_le (by omega)]

theorem At.shiftTimes {k : Key} {d : Bytes} {n : Nat} (h : k.At d n) (m : Nat) :
    (Key.shiftTimes m k).At d (n + m) := by
  induction m generalizing k n with
  | zero => exact h
  | succ m ih =>
    have := ih h.shift
    simpa [Key.shiftTimes, Nat.add_assoc, Nat.add_comm 1 m] using this

theorem At.unshift {k : Key} {d : Bytes} {n : Nat} (h : k.At d (n + 1)) : k.unshift.At d n := by
  obtain ⟨h1, h2, h3, h4⟩ := h
  constructor <;> simp [Key.unshift, readIkey_eq, ikeySize, h1, h2, Nat.mul_comm, Nat.mul_succ]

theorem At.unshiftAll {k : Key} {d : Bytes} {n : Nat} (h : k.At d n) : k.unshiftAll = mk' d := by
  cases n with
  | zero =>
    rw [Key.unshiftAll, h.shiftCount_eq]
    simp only [Nat.lt_irrefl, if_false]
    exact h.unique (mk'_at d)
  | succ n =>
    rw [Key.unshiftAll, h.shiftCount_eq, h.data_eq]
    simp [mk']

theorem At.ikey_lt {k : Key} {d : Bytes} {n : Nat} (h : k.At d n) : k.ikey < 2 ^ 64 := by
  rw [h.ikey_eq]; exact chunk_lt _

/-- `compare` against the chunk and length of a stored string. -/
theorem At.compare {k : Key} {d : Bytes} {n : Nat} (h : k.At d n) (s : Bytes) (klx : Nat)
    (hk : klx = s.length ∨ (8 < klx ∧ 8 < s.length)) :
    k.compare (chunk s) klx =
      (Ord.compare (chunk (d.drop (8 * n))) (chunk s)).then
        (if 8 < (d.drop (8 * n)).length ∧ 8 < s.length then .eq
         else Ord.compare (d.drop (8 * n)).length s.length) := by
  have hl := h.currentLen
  generalize hr : d.drop (8 * n) = r at *
  rw [Key.compare, h.ikey_eq, hr, hl]
  generalize hc : Ord.compare (chunk r) (chunk s) = c
  cases c with
  | lt => rfl
  | gt => rfl
  | eq =>
    simp only [ikeySize, Ordering.then]
    by_cases h1 : 8 < r.length <;> by_cases h2 : 8 < s.length
    · have : ¬ klx ≤ 8 := by omega
      simp [h1, h2, this]
    · have : klx = s.length := by omega
      have h3 : klx ≤ 8 := by omega
      simp only [h1, h2, h3, and_false, if_true, if_false]
      exact (Nat.compare_eq_gt.2 (by omega)).symm
    · simp only [h1, h2, false_and, if_false]
      rw [Nat.compare_eq_lt.2 (by omega), Nat.compare_eq_lt.2 (by omega)]
    · have : klx = s.length := by omega
      simp only [h1, h2, false_and, if_false, this]

/-- A key cursor that behaves as if it stood at byte `8 * n` of `d`: in truth `d` may be what is left of a longer key. -/
def Sees (k : Key) (d : Bytes) (n : Nat) : Prop := ∃ full m, k.At full (m + n) ∧ full.drop (8 * m) = d

theorem At.sees {k : Key} {d : Bytes} {n : Nat} (h : k.At d n) : k.Sees d n := ⟨d, 0, by rwa [Nat.zero_add], rfl⟩

theorem mk'_sees (d : Bytes) : (mk' d).Sees d 0 := (mk'_at d).sees

theorem Sees.shift {k : Key} {d : Bytes} {n : Nat} (h : k.Sees d n) : k.shift.Sees d (n + 1) := by
  obtain ⟨f, m, h1, h2⟩ := h
  exact ⟨f, m, h1.shift, h2⟩

private theorem drop_sees {f d : Bytes} {m : Nat} (n : Nat) (h : f.drop (8 * m) = d) : f.drop (8 * (m + n)) = d.drop (8 * n) := by
  rw [← h, List.drop_drop]; congr 1; omega

theorem Sees.ikey_eq {k : Key} {d : Bytes} {n : Nat} (h : k.Sees d n) : k.ikey = chunk (d.drop (8 * n)) := by
  obtain ⟨f, m, h1, h2⟩ := h
  rw [h1.ikey_eq, drop_sees n h2]

theorem Sees.currentLen {k : Key} {d : Bytes} {n : Nat} (h : k.Sees d n) : k.currentLen = (d.drop (8 * n)).length := by
  obtain ⟨f, m, h1, h2⟩ := h
  rw [h1.currentLen, drop_sees n h2]

theorem Sees.hasSuffix {k : Key} {d : Bytes} {n : Nat} (h : k.Sees d n) : k.hasSuffix = decide (8 < (d.drop (8 * n)).length) := by
  obtain ⟨f, m, h1, h2⟩ := h
  rw [h1.hasSuffix, drop_sees n h2]

theorem Sees.suffix {k : Key} {d : Bytes} {n : Nat} (h : k.Sees d n) : k.suffix = (d.drop (8 * n)).drop 8 := by
  obtain ⟨f, m, h1, h2⟩ := h
  rw [h1.suffix, drop_sees n h2]

theorem Sees.ikey_lt {k : Key} {d : Bytes} {n : Nat} (h : k.Sees d n) : k.ikey < 2 ^ 64 := by
  rw [h.ikey_eq]; exact chunk_lt _

theorem Sees.len_le {k : Key} {d : Bytes} {n : Nat} (h : k.Sees d n) : d.length ≤ k.data.length := by
  obtain ⟨f, m, h1, h2⟩ := h
  rw [h1.data_eq, ← h2, List.length_drop]; omega

theorem Sees.compare {k : Key} {d : Bytes} {n : Nat} (h : k.Sees d n) (s : Bytes) (klx : Nat)
    (hk : klx = s.length ∨ (8 < klx ∧ 8 < s.length)) :
    k.compare (chunk s) klx =
      (Ord.compare (chunk (d.drop (8 * n))) (chunk s)).then
        (if 8 < (d.drop (8 * n)).length ∧ 8 < s.length then .eq
         else Ord.compare (d.drop (8 * n)).length s.length) := by
  obtain ⟨f, m, h1, h2⟩ := h
  rw [h1.compare s klx hk, drop_sees n h2]

end Verif.Key
