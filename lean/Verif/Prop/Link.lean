import Verif.Model.Link
/-!
# C38: pointer marks
-/
namespace Verif.Link

theorem bit0_markBit (i : Nat) : markBit.getLsbD i = decide (i = 0) := by
  simp [markBit, BitVec.getLsbD_one]

theorem isMarked_iff (p : BitVec 64) : isMarked p = p.getLsbD 0 := by
  have h : (p &&& markBit = 0#64) ↔ p.getLsbD 0 = false := by
    constructor
    · intro h
      have := congrArg (fun x => BitVec.getLsbD x 0) h
      simpa only [BitVec.getLsbD_and, bit0_markBit, decide_true, Bool.and_true, BitVec.getLsbD_zero] using this
    · intro h
      apply BitVec.eq_of_getLsbD_eq
      intro i hi
      by_cases h0 : i = 0
      · subst h0; simp only [BitVec.getLsbD_and, h, Bool.false_and, BitVec.getLsbD_zero]
      · simp only [BitVec.getLsbD_and, bit0_markBit, h0, decide_false, Bool.and_false, BitVec.getLsbD_zero]
  unfold isMarked
  by_cases c : p &&& markBit = 0#64
  · rw [h.1 c]; simp [c]
  · have : p.getLsbD 0 = true := by
      cases hp : p.getLsbD 0
      · exact absurd (h.2 hp) c
      · rfl
    rw [this]; simp [c]

theorem getLsbD_mark (p : BitVec 64) (i : Nat) : (mark p).getLsbD i = (p.getLsbD i || decide (i = 0)) := by
  simp [mark, bit0_markBit]
theorem getLsbD_unmark (p : BitVec 64) (i : Nat) : (unmark p).getLsbD i = (p.getLsbD i && !decide (i = 0)) := by
  by_cases h : i < 64
  · simp only [unmark, BitVec.getLsbD_and, BitVec.getLsbD_not, bit0_markBit, h, decide_true, Bool.true_and]
  · have h1 : p.getLsbD i = false := BitVec.getLsbD_of_ge _ _ (by omega)
    simp [unmark, h1]

/-- An address of an object with alignment at least two. -/
def Even (p : BitVec 64) : Prop := p.toNat % 2 = 0

theorem even_iff (p : BitVec 64) : Even p ↔ p.getLsbD 0 = false := by
  have h : p.getLsbD 0 = decide (p.toNat % 2 = 1) := by
    show p.toNat.testBit 0 = _
    rw [Nat.testBit_zero]
  unfold Even
  rw [h]; simp

/-- **C38.** For every even address: marking can be undone, the marked address tests as marked and the plain one does not;
marking and unmarking are idempotent and change nothing but the lowest bit; two even addresses with equal marks are equal;
null stays recognisable through unmarking. -/
theorem C38_mark_roundtrip (p : BitVec 64) (h : Even p) :
    unmark (mark p) = p ∧ isMarked (mark p) = true ∧ isMarked p = false ∧ isMarked (unmark (mark p)) = false ∧
    unmark p = p ∧ mark p ≠ p ∧ (mark p).toNat = p.toNat + 1 ∧
    (∀ q, Even q → mark p = mark q → p = q) ∧ (unmark (mark p) = 0#64 ↔ p = 0#64) := by
  have h0 := (even_iff p).1 h
  have e1 : unmark (mark p) = p := by
    apply BitVec.eq_of_getLsbD_eq
    intro i hi
    rw [getLsbD_unmark, getLsbD_mark]
    by_cases c : i = 0
    · subst c; rw [h0]; rfl
    · simp [c]
  have e2 : ∀ p : BitVec 64, Even p → unmark p = p := by
    intro p h
    apply BitVec.eq_of_getLsbD_eq
    intro i hi
    rw [getLsbD_unmark]
    by_cases c : i = 0
    · subst c; rw [(even_iff p).1 h]; rfl
    · simp [c]
  have e3 : ∀ p : BitVec 64, Even p → unmark (mark p) = p := by
    intro p h
    apply BitVec.eq_of_getLsbD_eq
    intro i hi
    rw [getLsbD_unmark, getLsbD_mark]
    by_cases c : i = 0
    · subst c; rw [(even_iff p).1 h]; rfl
    · simp [c]
  have hm : isMarked (mark p) = true := by rw [isMarked_iff, getLsbD_mark]; simp
  have hu : isMarked p = false := by rw [isMarked_iff, h0]
  refine ⟨e1, hm, hu, by rw [e1]; exact hu, e2 p h, ?_, ?_, ?_, by rw [e1]⟩
  · intro e; rw [e] at hm; rw [hm] at hu; cases hu
  · have : (mark p).toNat = p.toNat ||| 1 := by simp [mark, markBit]
    rw [this]
    unfold Even at h
    have h2 := Nat.two_pow_add_eq_or_of_lt (i := 1) (b := 1) (by decide) (p.toNat / 2)
    have h3 : 2 ^ 1 * (p.toNat / 2) = p.toNat := by omega
    rw [h3] at h2
    exact h2.symm
  · intro q hq e
    rw [← e1, e, e3 q hq]

/-- **C38.** For every address whatever: unmarking and marking are idempotent, each determines the mark test, and an
address tests as marked exactly when it is odd. -/
theorem C38_mark_any (p : BitVec 64) :
    mark (mark p) = mark p ∧ unmark (unmark p) = unmark p ∧ mark (unmark p) = mark p ∧ unmark (mark p) = unmark p ∧
    isMarked (mark p) = true ∧ isMarked (unmark p) = false ∧ (isMarked p = true ↔ p.toNat % 2 = 1) ∧
    Even (unmark p) := by
  have ext : ∀ x y : BitVec 64, (∀ i, x.getLsbD i = y.getLsbD i) → x = y :=
    fun x y h => BitVec.eq_of_getLsbD_eq (fun i _ => h i)
  refine ⟨?_, ?_, ?_, ?_, ?_, ?_, ?_, ?_⟩
  · apply ext; intro i; simp only [getLsbD_mark]; cases p.getLsbD i <;> cases decide (i = 0) <;> rfl
  · apply ext; intro i; simp only [getLsbD_unmark]; cases p.getLsbD i <;> cases decide (i = 0) <;> rfl
  · apply ext; intro i; simp only [getLsbD_mark, getLsbD_unmark]; cases p.getLsbD i <;> cases decide (i = 0) <;> rfl
  · apply ext; intro i; simp only [getLsbD_mark, getLsbD_unmark]; cases p.getLsbD i <;> cases decide (i = 0) <;> rfl
  · rw [isMarked_iff, getLsbD_mark]; simp
  · rw [isMarked_iff, getLsbD_unmark]; simp
  · rw [isMarked_iff]
    have := even_iff p
    unfold Even at this
    constructor
    · intro h; rcases Nat.mod_two_eq_zero_or_one p.toNat with h1 | h1
      · rw [this.1 h1] at h; cases h
      · exact h1
    · intro h; cases hp : p.getLsbD 0
      · have := this.2 hp; omega
      · rfl
  · rw [even_iff, getLsbD_unmark]; simp

example : Even 0x7fff_1230#64 := by unfold Even; decide
/-- Evenness is needed: an odd address does not survive a round trip. -/
example : unmark (mark 5#64) = 4#64 := by decide

end Verif.Link
