import Verif.Model.NodeVersion
set_option linter.unusedSimpArgs false
set_option linter.unusedVariables false
/-! The version word as a record of fields. -/
namespace Verif.NV

theorem and_mulAdd (k q r Q R : Nat) (hr : r < 2 ^ k) (hR : R < 2 ^ k) :
    (q * 2 ^ k + r) &&& (Q * 2 ^ k + R) = (q &&& Q) * 2 ^ k + (r &&& R) := by
  apply Nat.eq_of_testBit_eq
  intro j
  have h3 : r &&& R < 2 ^ k := Nat.lt_of_le_of_lt Nat.and_le_left hr
  rw [Nat.testBit_and, Nat.mul_comm q, Nat.mul_comm Q, Nat.mul_comm (q &&& Q),
    Nat.testBit_two_pow_mul_add _ hr, Nat.testBit_two_pow_mul_add _ hR,
    Nat.testBit_two_pow_mul_add _ h3]
  split <;> simp

theorem or_mulAdd (k q r Q R : Nat) (hr : r < 2 ^ k) (hR : R < 2 ^ k) :
    (q * 2 ^ k + r) ||| (Q * 2 ^ k + R) = (q ||| Q) * 2 ^ k + (r ||| R) := by
  apply Nat.eq_of_testBit_eq
  intro j
  have h3 : r ||| R < 2 ^ k := Nat.or_lt_two_pow hr hR
  rw [Nat.testBit_or, Nat.mul_comm q, Nat.mul_comm Q, Nat.mul_comm (q ||| Q),
    Nat.testBit_two_pow_mul_add _ hr, Nat.testBit_two_pow_mul_add _ hR,
    Nat.testBit_two_pow_mul_add _ h3]
  split <;> simp

theorem xor_mulAdd (k q r Q R : Nat) (hr : r < 2 ^ k) (hR : R < 2 ^ k) :
    (q * 2 ^ k + r) ^^^ (Q * 2 ^ k + R) = (q ^^^ Q) * 2 ^ k + (r ^^^ R) := by
  apply Nat.eq_of_testBit_eq
  intro j
  have h3 : r ^^^ R < 2 ^ k := Nat.xor_lt_two_pow hr hR
  rw [Nat.testBit_xor, Nat.mul_comm q, Nat.mul_comm Q, Nat.mul_comm (q ^^^ Q),
    Nat.testBit_two_pow_mul_add _ hr, Nat.testBit_two_pow_mul_add _ hR,
    Nat.testBit_two_pow_mul_add _ h3]
  split <;> simp

/-- Fields of a version word: leaf, root, deleted, unused flag, split counter (19 bits),
insert counter (6 bits), and the three low state bits. -/
structure F where
  l : Nat
  r : Nat
  d : Nat
  u : Nat
  s : Nat
  i : Nat
  w : Nat
deriving DecidableEq, Repr

namespace F

def enc (f : F) : Nat :=
  (((((f.l * 2 ^ 1 + f.r) * 2 ^ 1 + f.d) * 2 ^ 1 + f.u) * 2 ^ 19 + f.s) * 2 ^ 6 + f.i) * 2 ^ 3 + f.w

structure Ok (f : F) : Prop where
  l : f.l < 2 ^ 1
  r : f.r < 2 ^ 1
  d : f.d < 2 ^ 1
  u : f.u < 2 ^ 1
  s : f.s < 2 ^ 19
  i : f.i < 2 ^ 6
  w : f.w < 2 ^ 3

/-- Fields of a word. -/
def of (v : W) : F :=
  { l := v.toNat / 2 ^ 31, r := v.toNat / 2 ^ 30 % 2, d := v.toNat / 2 ^ 29 % 2,
    u := v.toNat / 2 ^ 28 % 2, s := v.toNat / 2 ^ 9 % 2 ^ 19, i := v.toNat / 2 ^ 3 % 2 ^ 6,
    w := v.toNat % 2 ^ 3 }

theorem of_ok (v : W) : (of v).Ok := by
  have := v.isLt
  constructor <;> simp only [of] <;> omega

theorem enc_of (v : W) : (of v).enc = v.toNat := by
  have := v.isLt
  simp only [of, enc]; omega

theorem enc_inj {f g : F} (hf : f.Ok) (hg : g.Ok) (h : f.enc = g.enc) : f = g := by
  obtain ⟨h1, h2, h3, h4, h5, h6, h7⟩ := hf
  obtain ⟨g1, g2, g3, g4, g5, g6, g7⟩ := hg
  cases f; cases g
  simp only [enc, F.mk.injEq] at *
  omega

theorem enc_lt {f : F} (hf : f.Ok) : f.enc < 2 ^ 32 := by
  obtain ⟨h1, h2, h3, h4, h5, h6, h7⟩ := hf
  simp only [enc]; omega

/-- The word with given fields. -/
theorem of_eq {v : W} {f : F} (hf : f.Ok) (h : v.toNat = f.enc) : of v = f :=
  enc_inj (of_ok v) hf (by rw [enc_of, h])

theorem ext_of {v w : W} (h : of v = of w) : v = w := by
  apply BitVec.eq_of_toNat_eq
  rw [← enc_of, h, enc_of]

def map2 (op : Nat → Nat → Nat) (f g : F) : F :=
  { l := op f.l g.l, r := op f.r g.r, d := op f.d g.d, u := op f.u g.u, s := op f.s g.s,
    i := op f.i g.i, w := op f.w g.w }

theorem of_and (v w : W) : of (v &&& w) = map2 (· &&& ·) (of v) (of w) := by
  have hv := of_ok v
  have hw := of_ok w
  apply of_eq
  · exact ⟨Nat.lt_of_le_of_lt Nat.and_le_left hv.1, Nat.lt_of_le_of_lt Nat.and_le_left hv.2,
      Nat.lt_of_le_of_lt Nat.and_le_left hv.3, Nat.lt_of_le_of_lt Nat.and_le_left hv.4,
      Nat.lt_of_le_of_lt Nat.and_le_left hv.5, Nat.lt_of_le_of_lt Nat.and_le_left hv.6,
      Nat.lt_of_le_of_lt Nat.and_le_left hv.7⟩
  · rw [BitVec.toNat_and, ← enc_of v, ← enc_of w]
    simp only [enc, map2]
    rw [and_mulAdd _ _ _ _ _ hv.w hw.w, and_mulAdd _ _ _ _ _ hv.i hw.i,
      and_mulAdd _ _ _ _ _ hv.s hw.s, and_mulAdd _ _ _ _ _ hv.u hw.u,
      and_mulAdd _ _ _ _ _ hv.d hw.d, and_mulAdd _ _ _ _ _ hv.r hw.r]

theorem of_or (v w : W) : of (v ||| w) = map2 (· ||| ·) (of v) (of w) := by
  have hv := of_ok v
  have hw := of_ok w
  apply of_eq
  · exact ⟨Nat.or_lt_two_pow hv.1 hw.1,
      Nat.or_lt_two_pow hv.2 hw.2,
      Nat.or_lt_two_pow hv.3 hw.3,
      Nat.or_lt_two_pow hv.4 hw.4,
      Nat.or_lt_two_pow hv.5 hw.5,
      Nat.or_lt_two_pow hv.6 hw.6,
      Nat.or_lt_two_pow hv.7 hw.7⟩
  · rw [BitVec.toNat_or, ← enc_of v, ← enc_of w]
    simp only [enc, map2]
    rw [or_mulAdd _ _ _ _ _ hv.w hw.w, or_mulAdd _ _ _ _ _ hv.i hw.i,
      or_mulAdd _ _ _ _ _ hv.s hw.s, or_mulAdd _ _ _ _ _ hv.u hw.u,
      or_mulAdd _ _ _ _ _ hv.d hw.d, or_mulAdd _ _ _ _ _ hv.r hw.r]

theorem of_xor (v w : W) : of (v ^^^ w) = map2 (· ^^^ ·) (of v) (of w) := by
  have hv := of_ok v
  have hw := of_ok w
  apply of_eq
  · exact ⟨Nat.xor_lt_two_pow hv.1 hw.1,
      Nat.xor_lt_two_pow hv.2 hw.2,
      Nat.xor_lt_two_pow hv.3 hw.3,
      Nat.xor_lt_two_pow hv.4 hw.4,
      Nat.xor_lt_two_pow hv.5 hw.5,
      Nat.xor_lt_two_pow hv.6 hw.6,
      Nat.xor_lt_two_pow hv.7 hw.7⟩
  · rw [BitVec.toNat_xor, ← enc_of v, ← enc_of w]
    simp only [enc, map2]
    rw [xor_mulAdd _ _ _ _ _ hv.w hw.w, xor_mulAdd _ _ _ _ _ hv.i hw.i,
      xor_mulAdd _ _ _ _ _ hv.s hw.s, xor_mulAdd _ _ _ _ _ hv.u hw.u,
      xor_mulAdd _ _ _ _ _ hv.d hw.d, xor_mulAdd _ _ _ _ _ hv.r hw.r]

end F

open F

theorem eq_zero_iff (v : W) : v = 0#32 ↔ of v = ⟨0, 0, 0, 0, 0, 0, 0⟩ := by
  constructor
  · rintro rfl; decide
  · intro h; exact ext_of (h.trans (by decide))

theorem of_LOCK : of LOCK = ⟨0, 0, 0, 0, 0, 0, 1⟩ := by decide
theorem of_INSERTING : of INSERTING = ⟨0, 0, 0, 0, 0, 0, 2⟩ := by decide
theorem of_SPLITTING : of SPLITTING = ⟨0, 0, 0, 0, 0, 0, 4⟩ := by decide
theorem of_DIRTY : of DIRTY = ⟨0, 0, 0, 0, 0, 0, 6⟩ := by decide
theorem of_LOCKDIRTY : of (LOCK ||| DIRTY) = ⟨0, 0, 0, 0, 0, 0, 7⟩ := by decide
theorem of_DELETED : of DELETED = ⟨0, 0, 1, 0, 0, 0, 0⟩ := by decide
theorem of_ROOT : of ROOT = ⟨0, 1, 0, 0, 0, 0, 0⟩ := by decide
theorem of_NROOT : of (~~~ROOT) = ⟨1, 0, 1, 1, 2 ^ 19 - 1, 2 ^ 6 - 1, 7⟩ := by decide
theorem of_ISLEAF : of ISLEAF = ⟨1, 0, 0, 0, 0, 0, 0⟩ := by decide
theorem of_SUM : of SPLIT_UNLOCK_MASK = ⟨1, 0, 1, 0, 2 ^ 19 - 1, 0, 0⟩ := by decide
theorem of_UM : of UNLOCK_MASK = ⟨1, 1, 1, 0, 2 ^ 19 - 1, 2 ^ 6 - 1, 0⟩ := by decide

theorem bit_cases {x : Nat} (h : x < 2 ^ 1) : x = 0 ∨ x = 1 := by omega
theorem low_cases {x : Nat} (h : x < 2 ^ 3) :
    x = 0 ∨ x = 1 ∨ x = 2 ∨ x = 3 ∨ x = 4 ∨ x = 5 ∨ x = 6 ∨ x = 7 := by omega

theorem and_one_bit {x : Nat} (h : x < 2 ^ 1) : x &&& 1 = x := by
  rcases bit_cases h with h | h <;> subst h <;> rfl

theorem and19 {x : Nat} (h : x < 2 ^ 19) : x &&& (2 ^ 19 - 1) = x := by
  rw [Nat.and_two_pow_sub_one_eq_mod]; exact Nat.mod_eq_of_lt h

theorem and6 {x : Nat} (h : x < 2 ^ 6) : x &&& (2 ^ 6 - 1) = x := by
  rw [Nat.and_two_pow_sub_one_eq_mod]; exact Nat.mod_eq_of_lt h

theorem and3 {x : Nat} (h : x < 2 ^ 3) : x &&& 7 = x := by
  rcases low_cases h with h | h | h | h | h | h | h | h <;> subst h <;> rfl

/-- The counter: insert and split counters read as one 25-bit number. -/
def ctr (v : W) : Nat := (of v).s * 64 + (of v).i

theorem ctr_lt (v : W) : ctr v < 2 ^ 25 := by
  have := (of_ok v).s; have := (of_ok v).i
  simp only [ctr]; omega

/-! Meaning of the tests. -/

theorem isSplitting_iff (v : W) : ((v &&& SPLITTING) != 0#32) = decide (4 ≤ (of v).w) := by
  have h := of_ok v
  rw [bne, Bool.eq_iff_iff]
  simp only [Bool.not_eq_true', beq_eq_false_iff_ne, ne_eq, eq_zero_iff, of_and, of_SPLITTING, map2,
    Nat.and_zero, decide_eq_true_eq, F.mk.injEq, true_and]
  rcases low_cases h.w with h | h | h | h | h | h | h | h <;> rw [h] <;> decide

theorem lockable_iff (v : W) : lockable v = decide ((of v).w = 0) := by
  have h := of_ok v
  rw [lockable, of_and_eq]
where
  of_and_eq : ((v &&& (LOCK ||| DIRTY)) == 0#32) = decide ((of v).w = 0) := by
    have h := of_ok v
    rw [Bool.eq_iff_iff]
    simp only [beq_iff_eq, eq_zero_iff, of_and, of_LOCKDIRTY, map2, Nat.and_zero,
      decide_eq_true_eq, F.mk.injEq, true_and]
    rw [and3 h.w]

theorem stableOk_iff (v : W) : stableOk v = decide ((of v).w ≤ 1) := by
  have h := of_ok v
  rw [stableOk, Bool.eq_iff_iff]
  simp only [beq_iff_eq, eq_zero_iff, of_and, of_DIRTY, map2, Nat.and_zero,
    decide_eq_true_eq, F.mk.injEq, true_and]
  rcases low_cases h.w with h | h | h | h | h | h | h | h <;> rw [h] <;> decide

theorem isLeaf_iff (v : W) : isLeaf v = decide ((of v).l = 1) := by
  have h := of_ok v
  rw [isLeaf, bne, Bool.eq_iff_iff]
  simp only [Bool.not_eq_true', beq_eq_false_iff_ne, ne_eq, eq_zero_iff, of_and, of_ISLEAF, map2,
    Nat.and_zero, decide_eq_true_eq, F.mk.injEq, and_true, and_one_bit h.l]
  have := h.l; omega

theorem isRoot_iff (v : W) : isRoot v = decide ((of v).r = 1) := by
  have h := of_ok v
  rw [isRoot, bne, Bool.eq_iff_iff]
  simp only [Bool.not_eq_true', beq_eq_false_iff_ne, ne_eq, eq_zero_iff, of_and, of_ROOT, map2,
    Nat.and_zero, decide_eq_true_eq, F.mk.injEq, and_true, true_and, and_one_bit h.r]
  have := h.r; omega

theorem isDeleted_iff (v : W) : isDeleted v = decide ((of v).d = 1) := by
  have h := of_ok v
  rw [isDeleted, bne, Bool.eq_iff_iff]
  simp only [Bool.not_eq_true', beq_eq_false_iff_ne, ne_eq, eq_zero_iff, of_and, of_DELETED, map2,
    Nat.and_zero, decide_eq_true_eq, F.mk.injEq, and_true, true_and, and_one_bit h.d]
  have := h.d; omega

theorem isLocked_iff (v : W) : isLocked v = decide ((of v).w % 2 = 1) := by
  have h := of_ok v
  rw [isLocked, bne, Bool.eq_iff_iff]
  simp only [Bool.not_eq_true', beq_eq_false_iff_ne, ne_eq, eq_zero_iff, of_and, of_LOCK, map2,
    Nat.and_zero, decide_eq_true_eq, F.mk.injEq, true_and]
  rcases low_cases h.w with h | h | h | h | h | h | h | h <;> rw [h] <;> decide

/-! Effect of the operations on the fields. -/

theorem of_lockedOf {v : W} (h : (of v).w = 0) : of (lockedOf v) = { of v with w := 3 } := by
  rw [lockedOf, of_or, of_or, of_LOCK, of_INSERTING]
  simp only [map2, Nat.or_zero, h]; rfl

theorem toNat_of (v : W) : v.toNat = (of v).enc := (enc_of v).symm

/-- Unlocking without the split bit, with the inserting bit: the 25-bit counter goes up by one. -/
theorem of_unlock_insert {lv : W} (hw : (of lv).w = 3 ∨ (of lv).w = 2) (hu : (of lv).u = 0) :
    of (unlockOf lv) = { of lv with s := (ctr lv + 1) / 64 % 2 ^ 19, i := (ctr lv + 1) % 64, w := 0 } := by
  have h := of_ok lv
  have hsp : ¬ 4 ≤ (of lv).w := by omega
  have hins : lv &&& INSERTING = INSERTING := by
    apply ext_of
    rw [of_and, of_INSERTING]
    simp only [map2, Nat.and_zero]
    rcases hw with hw | hw <;> rw [hw] <;> rfl
  rw [unlockOf, isSplitting_iff, hins]
  simp only [hsp, decide_false, Bool.false_eq_true, if_false]
  have hadd : of (lv + INSERTING <<< 2) =
      { of lv with u := (ctr lv + 1) / 2 ^ 25, s := (ctr lv + 1) / 64 % 2 ^ 19, i := (ctr lv + 1) % 64 } := by
    have hc := ctr_lt lv
    apply of_eq
    · constructor <;> first | exact h.l | exact h.r | exact h.d | exact h.w | (simp only; omega)
    · rw [BitVec.toNat_add, toNat_of lv, show (INSERTING <<< 2).toNat = 8 from rfl]
      have := h.l; have := h.r; have := h.d; have := h.s; have := h.i; have := h.w
      simp only [enc, hu, ctr] at *
      omega
  rw [of_and, hadd, of_UM]
  have hs : (ctr lv + 1) / 64 % 2 ^ 19 < 2 ^ 19 := Nat.mod_lt _ (by decide)
  have hi : (ctr lv + 1) % 64 < 2 ^ 6 := Nat.mod_lt _ (by decide)
  simp only [map2, Nat.and_zero, and19 hs, and6 hi, and_one_bit h.l, and_one_bit h.r,
    and_one_bit h.d, hu]

/-- Adding the split increment and masking. -/
theorem of_unlockForSplit {lv : W} (hu : (of lv).u = 0) :
    of (unlockForSplit lv) =
      { of lv with r := 0, s := ((of lv).s + 1) % 2 ^ 19, i := 0, w := 0 } := by
  have h := of_ok lv
  have hadd : of (lv + VSPLIT) =
      { of lv with u := ((of lv).s + 1) / 2 ^ 19, s := ((of lv).s + 1) % 2 ^ 19 } := by
    have := h.s
    apply of_eq
    · constructor <;> first | exact h.l | exact h.r | exact h.d | exact h.w | exact h.i | (simp only; omega)
    · rw [BitVec.toNat_add, toNat_of lv, show VSPLIT.toNat = 512 from rfl]
      have := h.l; have := h.r; have := h.d; have := h.s; have := h.i; have := h.w
      simp only [enc, hu] at *
      omega
  rw [unlockForSplit, of_and, hadd, of_SUM]
  have hs : ((of lv).s + 1) % 2 ^ 19 < 2 ^ 19 := Nat.mod_lt _ (by decide)
  simp only [map2, Nat.and_zero, and19 hs, and_one_bit h.l, and_one_bit h.d, hu]

theorem of_unlock_split {lv : W} (hw : 4 ≤ (of lv).w) (hu : (of lv).u = 0) :
    of (unlockOf lv) = { of lv with r := 0, s := ((of lv).s + 1) % 2 ^ 19, i := 0, w := 0 } := by
  rw [unlockOf, isSplitting_iff]
  simp only [hw, decide_true, if_true]
  exact of_unlockForSplit hu

/-- What the marks do to a held word: flags and low bits only. -/
structure Held (base : F) (p : W × W) (split : Bool) : Prop where
  same : p.1 = p.2
  l : (of p.2).l = base.l
  u : (of p.2).u = base.u
  s : (of p.2).s = base.s
  i : (of p.2).i = base.i
  r : (of p.2).r = 1 → base.r = 1
  d : base.d = 1 → (of p.2).d = 1
  w : (of p.2).w = if split then 7 else 3

/-- The list contains a split or delete mark (both set the splitting bit). -/
def marksSplit (ms : List Mark) : Bool := ms.any (fun m => m == .split || m == .deleted)

theorem held_step {base : F} {p : W × W} {b : Bool} (h : Held base p b) (m : Mark) :
    Held base (applyMark m p) (b || (m == .split || m == .deleted)) := by
  obtain ⟨w, lv⟩ := p
  obtain ⟨hs, h1, h2, h3, h4, h5, h6, h7⟩ := h
  simp only at hs h1 h2 h3 h4 h5 h6 h7
  subst hs
  have hok := of_ok w
  cases m with
  | insert =>
    have : ((w &&& INSERTING) == 0#32) = false := by
      rw [beq_eq_false_iff_ne, ne_eq, eq_zero_iff, of_and, of_INSERTING]
      simp only [map2, h7]
      cases b <;> simp
    simp only [applyMark, this]
    constructor <;> simp_all
  | split =>
    have e : of (w ||| SPLITTING) = { of w with w := 7 } := by
      rw [of_or, of_SPLITTING]
      simp only [map2, Nat.or_zero, h7]
      cases b <;> rfl
    constructor <;> simp only [applyMark, e] <;> simp_all
  | deleted =>
    have e : of (w ||| DELETED ||| SPLITTING) = { of w with d := 1, w := 7 } := by
      rw [of_or, of_or, of_DELETED, of_SPLITTING]
      simp only [map2, Nat.or_zero, h7]
      rcases bit_cases hok.d with hd | hd <;> rw [hd] <;> cases b <;> rfl
    constructor <;> simp only [applyMark, e] <;> simp_all
  | nonroot =>
    have e : of (w &&& ~~~ROOT) = { of w with r := 0 } := by
      rw [of_and, of_NROOT]
      simp only [map2, Nat.and_zero, and19 hok.s, and6 hok.i, and_one_bit hok.l,
        and_one_bit hok.d, and_one_bit hok.u, and3 hok.w]
    constructor <;> simp only [applyMark, e] <;> simp_all

theorem held_foldl {base : F} (ms : List Mark) {p : W × W} {b : Bool} (h : Held base p b) :
    Held base (ms.foldl (fun s m => applyMark m s) p) (b || marksSplit ms) := by
  induction ms generalizing p b with
  | nil => simpa [marksSplit] using h
  | cons m ms ih =>
    have := ih (held_step h m)
    simpa [marksSplit, Bool.or_assoc] using this

theorem heldAfter_held {w : W} (hw : (of w).w = 0) (ms : List Mark) :
    Held (of w) (heldAfter w ms) (marksSplit ms) := by
  have := held_foldl (base := of w) ms (p := (lockedOf w, lockedOf w)) (b := false) (by
    constructor <;> simp [of_lockedOf hw])
  simpa [heldAfter] using this

/-- Counter after a critical section. -/
def nextCtr (split : Bool) (c : Nat) : Nat :=
  if split then (c / 64 + 1) * 64 % 2 ^ 25 else (c + 1) % 2 ^ 25

theorem cycle_fields {w : W} (hw : (of w).w = 0) (hu : (of w).u = 0) (ms : List Mark) :
    (of (cycle w ms)).w = 0 ∧ (of (cycle w ms)).u = 0 ∧ (of (cycle w ms)).l = (of w).l ∧
    ((of (cycle w ms)).r = 1 → (of w).r = 1) ∧ ((of w).d = 1 → (of (cycle w ms)).d = 1) ∧
    (marksSplit ms = true → (of (cycle w ms)).r = 0) ∧
    ctr (cycle w ms) = nextCtr (marksSplit ms) (ctr w) := by
  have h := heldAfter_held hw ms
  have hok := of_ok w
  have h1 := hok.s
  have h2 := hok.i
  have hl := h.l; have hs := h.s; have hi := h.i; have hr := h.r; have hd := h.d; have hww := h.w
  have huu : (of (heldAfter w ms).2).u = 0 := by rw [h.u, hu]
  cases hm : marksSplit ms with
  | true =>
    have e := of_unlock_split (lv := (heldAfter w ms).2) (by rw [hww, hm]; decide) huu
    rw [cycle, ctr, e]
    refine ⟨rfl, huu, hl, by simp, hd, by simp, ?_⟩
    simp only [nextCtr, if_true, ctr, hs]
    omega
  | false =>
    have e := of_unlock_insert (lv := (heldAfter w ms).2) (by rw [hww, hm]; simp) huu
    rw [cycle, ctr, e]
    refine ⟨rfl, huu, hl, hr, hd, by simp, ?_⟩
    simp only [nextCtr, Bool.false_eq_true, if_false, ctr, hs, hi]
    omega

/-- Unlocked, well-formed word: low bits and unused bit clear. -/
structure Idle (w : W) : Prop where
  w0 : (of w).w = 0
  u0 : (of w).u = 0

theorem cycle_idle {w : W} (h : Idle w) (ms : List Mark) : Idle (cycle w ms) :=
  ⟨(cycle_fields h.w0 h.u0 ms).1, (cycle_fields h.w0 h.u0 ms).2.1⟩

theorem of_markRoot (w : W) : of (markRoot w) = { of w with r := 1 } := by
  have h := of_ok w
  rw [markRoot, of_or, of_ROOT]
  simp only [map2, Nat.or_zero]
  rcases bit_cases h.r with hr | hr <;> rw [hr] <;> rfl

theorem of_markNonroot (w : W) : of (markNonroot w) = { of w with r := 0 } := by
  have hok := of_ok w
  rw [markNonroot, of_and, of_NROOT]
  simp only [map2, Nat.and_zero, and19 hok.s, and6 hok.i, and_one_bit hok.l,
    and_one_bit hok.d, and_one_bit hok.u, and3 hok.w]

theorem stepEv_idle {w : W} (h : Idle w) (e : Ev) : Idle (stepEv w e) := by
  cases e with
  | cs ms => exact cycle_idle h ms
  | setRoot => exact ⟨by simp [stepEv, of_markRoot, h.w0], by simp [stepEv, of_markRoot, h.u0]⟩
  | clearRoot => exact ⟨by simp [stepEv, of_markNonroot, h.w0], by simp [stepEv, of_markNonroot, h.u0]⟩

theorem run_idle {w : W} (h : Idle w) (es : List Ev) : Idle (run w es) := by
  induction es generalizing w with
  | nil => exact h
  | cons e es ih => exact ih (stepEv_idle h e)

/-- Number of critical sections in an event list, and of those that marked a split. -/
def Ev.isCs : Ev → Bool
  | .cs _ => true
  | _ => false
def Ev.isSplit : Ev → Bool
  | .cs ms => marksSplit ms
  | _ => false
def nSections (es : List Ev) : Nat := (es.filter Ev.isCs).length
def nSplits (es : List Ev) : Nat := (es.filter Ev.isSplit).length

theorem nSplits_le (es : List Ev) : nSplits es ≤ nSections es := by
  induction es with
  | nil => simp [nSplits, nSections]
  | cons e es ih =>
    cases e with
    | cs ms =>
      simp only [nSplits, nSections, List.filter_cons, Ev.isCs, if_true, List.length_cons] at *
      cases h : Ev.isSplit (.cs ms) <;> simp <;> omega
    | setRoot => simpa [nSplits, nSections, Ev.isCs, Ev.isSplit] using ih
    | clearRoot => simpa [nSplits, nSections, Ev.isCs, Ev.isSplit] using ih

/-- The unwrapped distance the counter has travelled after `es`. -/
theorem run_ctr {w : W} (h : Idle w) (es : List Ev) :
    ∃ p, ctr (run w es) = (ctr w + p) % 2 ^ 25 ∧ nSections es ≤ p ∧ p ≤ 64 * nSections es ∧
      (ctr w / 64 + nSplits es) ≤ (ctr w + p) / 64 := by
  induction es generalizing w with
  | nil => exact ⟨0, by simp [run, Nat.mod_eq_of_lt (ctr_lt w), nSections, nSplits]⟩
  | cons e es ih =>
    obtain ⟨p, hp1, hp2, hp3, hp4⟩ := ih (stepEv_idle h e)
    have hlt := ctr_lt w
    have hlt2 := ctr_lt (stepEv w e)
    have er : run w (e :: es) = run (stepEv w e) es := rfl
    rw [er]
    cases e with
    | setRoot =>
      have hc : ctr (stepEv w .setRoot) = ctr w := by simp [stepEv, ctr, of_markRoot]
      rw [hc] at hp1 hp4
      refine ⟨p, hp1, ?_, ?_, ?_⟩ <;> simpa [nSections, nSplits, Ev.isCs, Ev.isSplit]
    | clearRoot =>
      have hc : ctr (stepEv w .clearRoot) = ctr w := by simp [stepEv, ctr, of_markNonroot]
      rw [hc] at hp1 hp4
      refine ⟨p, hp1, ?_, ?_, ?_⟩ <;> simpa [nSections, nSplits, Ev.isCs, Ev.isSplit]
    | cs ms =>
      have hc := (cycle_fields h.w0 h.u0 ms).2.2.2.2.2.2
      have hn : nSections (.cs ms :: es) = nSections es + 1 := by
        rw [nSections, List.filter_cons_of_pos (by rfl)]; rfl
      rw [hn]
      simp only [stepEv] at *
      cases hm : marksSplit ms with
      | true =>
        have hs : nSplits (.cs ms :: es) = nSplits es + 1 := by
          rw [nSplits, List.filter_cons_of_pos (by exact hm)]; rfl
        rw [hm, nextCtr, if_pos rfl] at hc
        refine ⟨(ctr w / 64 + 1) * 64 - ctr w + p, ?_, ?_, ?_, ?_⟩
        · rw [hp1, hc]; omega
        · omega
        · omega
        · rw [hs]
          have h0 : ctr (cycle w ms) % 64 = 0 := by omega
          omega
      | false =>
        have hs : nSplits (.cs ms :: es) = nSplits es := by
          rw [nSplits, List.filter_cons_of_neg (by simp [Ev.isSplit, hm])]; rfl
        rw [hm, nextCtr] at hc
        simp only [Bool.false_eq_true, if_false] at hc
        refine ⟨1 + p, ?_, ?_, ?_, ?_⟩
        · rw [hp1, hc]; omega
        · omega
        · omega
        · rw [hs]
          by_cases hwrap : ctr w + 1 = 2 ^ 25
          · have : ctr (cycle w ms) = 0 := by omega
            omega
          · have : ctr (cycle w ms) = ctr w + 1 := by omega
            omega

/-! The comparison tests in terms of fields. -/

theorem xor_eq_zero_iff (a b : Nat) : a ^^^ b = 0 ↔ a = b := by
  constructor
  · intro h
    apply Nat.eq_of_testBit_eq
    intro i
    have := congrArg (fun x => x.testBit i) h
    simp only [Nat.testBit_xor, Nat.zero_testBit] at this
    revert this
    cases a.testBit i <;> cases b.testBit i <;> simp
  · rintro rfl; exact Nat.xor_self a

/-- `has_split` is false exactly if all fields from the split counter up agree. -/
theorem hasSplit_eq_false_iff (a b : W) : hasSplit a b = false ↔
    (of a).l = (of b).l ∧ (of a).r = (of b).r ∧ (of a).d = (of b).d ∧ (of a).u = (of b).u ∧
    (of a).s = (of b).s := by
  have h : hasSplit a b = decide (512 ≤ (of (a ^^^ b)).enc) := by
    unfold hasSplit
    apply decide_eq_decide.2
    rw [BitVec.le_def, toNat_of (a ^^^ b)]; rfl
  have hok := of_ok (a ^^^ b)
  rw [h, decide_eq_false_iff_not]
  have e := of_xor a b
  have hx : ∀ x y, x ^^^ y = 0 ↔ x = y := xor_eq_zero_iff
  rw [← hx (of a).l, ← hx (of a).r, ← hx (of a).d, ← hx (of a).u, ← hx (of a).s]
  have e1 : (of (a ^^^ b)).l = (of a).l ^^^ (of b).l := by rw [e]; rfl
  have e2 : (of (a ^^^ b)).r = (of a).r ^^^ (of b).r := by rw [e]; rfl
  have e3 : (of (a ^^^ b)).d = (of a).d ^^^ (of b).d := by rw [e]; rfl
  have e4 : (of (a ^^^ b)).u = (of a).u ^^^ (of b).u := by rw [e]; rfl
  have e5 : (of (a ^^^ b)).s = (of a).s ^^^ (of b).s := by rw [e]; rfl
  rw [← e1, ← e2, ← e3, ← e4, ← e5]
  have := hok.i; have := hok.w
  simp only [enc]
  omega

/-- `has_changed` is false exactly if everything but the lock and inserting bits agrees. -/
theorem hasChanged_eq_false_iff (a b : W) : hasChanged a b = false ↔
    (of a).l = (of b).l ∧ (of a).r = (of b).r ∧ (of a).d = (of b).d ∧ (of a).u = (of b).u ∧
    (of a).s = (of b).s ∧ (of a).i = (of b).i ∧ (of a).w / 4 = (of b).w / 4 := by
  have h : hasChanged a b = decide (3 < (of (a ^^^ b)).enc) := by
    unfold hasChanged
    apply decide_eq_decide.2
    rw [BitVec.lt_def, toNat_of (a ^^^ b)]; rfl
  have hok := of_ok (a ^^^ b)
  rw [h, decide_eq_false_iff_not]
  have e := of_xor a b
  have hx : ∀ x y, x ^^^ y = 0 ↔ x = y := xor_eq_zero_iff
  have hw : (of a).w / 4 = (of b).w / 4 ↔ ((of a).w ^^^ (of b).w) < 4 := by
    rcases low_cases (of_ok a).w with h | h | h | h | h | h | h | h <;>
    rcases low_cases (of_ok b).w with h' | h' | h' | h' | h' | h' | h' | h' <;>
    rw [h, h'] <;> decide
  rw [hw, ← hx (of a).l, ← hx (of a).r, ← hx (of a).d, ← hx (of a).u, ← hx (of a).s, ← hx (of a).i]
  have e1 : (of (a ^^^ b)).l = (of a).l ^^^ (of b).l := by rw [e]; rfl
  have e2 : (of (a ^^^ b)).r = (of a).r ^^^ (of b).r := by rw [e]; rfl
  have e3 : (of (a ^^^ b)).d = (of a).d ^^^ (of b).d := by rw [e]; rfl
  have e4 : (of (a ^^^ b)).u = (of a).u ^^^ (of b).u := by rw [e]; rfl
  have e5 : (of (a ^^^ b)).s = (of a).s ^^^ (of b).s := by rw [e]; rfl
  have e6 : (of (a ^^^ b)).i = (of a).i ^^^ (of b).i := by rw [e]; rfl
  have e7 : (of (a ^^^ b)).w = (of a).w ^^^ (of b).w := by rw [e]; rfl
  rw [← e1, ← e2, ← e3, ← e4, ← e5, ← e6, ← e7]
  simp only [enc]
  omega

end Verif.NV
