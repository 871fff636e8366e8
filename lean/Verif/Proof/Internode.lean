import Verif.Model.Internode
set_option linter.unusedSimpArgs false
set_option linter.unusedVariables false
namespace Verif.Internode
variable {P : Type}

theorem upd_same {α : Type} (f : Nat → α) (i : Nat) (a : α) : upd f i a i = a := by simp [upd]
theorem upd_ne {α : Type} (f : Nat → α) (i : Nat) (a : α) {j : Nat} (h : j ≠ i) : upd f i a j = f j := by simp [upd, h]

theorem shiftRight_spec (p : Nat) : ∀ (k : Nat) (a : Arr P),
    (shiftRight p k a).nkeys = a.nkeys ∧
    (∀ j, (shiftRight p k a).ikey j = if p < j ∧ j ≤ p + k then a.ikey (j - 1) else a.ikey j) ∧
    (∀ j, (shiftRight p k a).child j = if p + 1 < j ∧ j ≤ p + k + 1 then a.child (j - 1) else a.child j) := by
  intro k
  induction k with
  | zero =>
    intro a
    refine ⟨rfl, fun j => ?_, fun j => ?_⟩
    · rw [if_neg (by omega)]; rfl
    · rw [if_neg (by omega)]; rfl
  | succ k ih =>
    intro a
    obtain ⟨h1, h2, h3⟩ := ih { a with ikey := upd a.ikey (p + k + 1) (a.ikey (p + k)), child := upd a.child (p + k + 2) (a.child (p + k + 1)) }
    refine ⟨h1, fun j => ?_, fun j => ?_⟩
    · show (shiftRight p k _).ikey j = _
      rw [h2 j]
      by_cases c : j = p + k + 1
      · subst c
        rw [if_neg (by omega), if_pos (by omega)]
        simp [upd]
      · by_cases c2 : p < j ∧ j ≤ p + k
        · rw [if_pos c2, if_pos (by omega)]
          simp only [upd]
          rw [if_neg (by omega)]
        · rw [if_neg c2, if_neg (by omega)]
          simp [upd, c]
    · show (shiftRight p k _).child j = _
      rw [h3 j]
      by_cases c : j = p + k + 2
      · subst c
        rw [if_neg (by omega), if_pos (by omega)]
        simp [upd]
      · by_cases c2 : p + 1 < j ∧ j ≤ p + k + 1
        · rw [if_pos c2, if_pos (by omega)]
          simp only [upd]
          rw [if_neg (by omega)]
        · rw [if_neg c2, if_neg (by omega)]
          simp [upd, c]

/-- Closed form of `insert_key_and_child` on the used part of the arrays. -/
theorem insert_ikey (a : Arr P) (p k : Nat) (c : P) (hp : p ≤ a.nkeys) (j : Nat) (hj : j ≤ a.nkeys) :
    (insertKeyAndChild a p k c).ikey j = if j < p then a.ikey j else if j = p then k else a.ikey (j - 1) := by
  obtain ⟨_, h2, _⟩ := shiftRight_spec p (a.nkeys - p) a
  simp only [insertKeyAndChild, upd]
  by_cases e : j = p
  · simp [e]
  · rw [if_neg e, h2 j]
    by_cases e2 : j < p
    · rw [if_neg (by omega), if_pos e2]
    · rw [if_pos (by omega), if_neg e2, if_neg e]

theorem insert_child (a : Arr P) (p k : Nat) (c : P) (hp : p ≤ a.nkeys) (j : Nat) (hj : j ≤ a.nkeys + 1) :
    (insertKeyAndChild a p k c).child j = if j ≤ p then a.child j else if j = p + 1 then c else a.child (j - 1) := by
  obtain ⟨_, _, h3⟩ := shiftRight_spec p (a.nkeys - p) a
  simp only [insertKeyAndChild, upd]
  by_cases e : j = p + 1
  · subst e
    rw [if_pos rfl, if_neg (by omega), if_pos rfl]
  · rw [if_neg e, h3 j]
    by_cases e2 : j ≤ p
    · rw [if_neg (by omega), if_pos e2]
    · rw [if_pos (by omega), if_neg e2, if_neg e]

theorem insert_nkeys (a : Arr P) (p k : Nat) (c : P) : (insertKeyAndChild a p k c).nkeys = a.nkeys + 1 := rfl

theorem shiftFrom_spec (d : Arr P) (dp : Nat) (s : Arr P) (sp : Nat) : ∀ n,
    (shiftFrom d dp s sp n).nkeys = d.nkeys ∧
    (∀ j, (shiftFrom d dp s sp n).ikey j = if dp ≤ j ∧ j < dp + n then s.ikey (sp + (j - dp)) else d.ikey j) ∧
    (∀ j, (shiftFrom d dp s sp n).child j =
      if dp + 1 ≤ j ∧ j < dp + 1 + n then s.child (sp + 1 + (j - (dp + 1))) else d.child j) := by
  intro n
  induction n with
  | zero =>
    refine ⟨rfl, fun j => ?_, fun j => ?_⟩
    · rw [if_neg (by omega)]; rfl
    · rw [if_neg (by omega)]; rfl
  | succ n ih =>
    obtain ⟨h1, h2, h3⟩ := ih
    refine ⟨h1, fun j => ?_, fun j => ?_⟩
    · simp only [shiftFrom, upd]
      by_cases c : j = dp + n
      · subst c
        rw [if_pos rfl, if_pos (by omega), Nat.add_sub_cancel_left]
      · rw [if_neg c, h2 j]
        by_cases c2 : dp ≤ j ∧ j < dp + n
        · rw [if_pos c2, if_pos (by omega)]
        · rw [if_neg c2, if_neg (by omega)]
    · simp only [shiftFrom, upd]
      by_cases c : j = dp + 1 + n
      · subst c
        rw [if_pos rfl, if_pos (by omega), Nat.add_sub_cancel_left]
      · rw [if_neg c, h3 j]
        by_cases c2 : dp + 1 ≤ j ∧ j < dp + 1 + n
        · rw [if_pos c2, if_pos (by omega)]
        · rw [if_neg c2, if_neg (by omega)]

/-- Key `j` of the virtual node of `nkeys + 1` keys obtained by inserting at `p`. -/
def vkey (a : Arr P) (p k : Nat) (j : Nat) : Nat := if j < p then a.ikey j else if j = p then k else a.ikey (j - 1)
/-- Child `j` of that virtual node. -/
def vchild (a : Arr P) (p : Nat) (c : P) (j : Nat) : P :=
  if j ≤ p then a.child j else if j = p + 1 then c else a.child (j - 1)

/-- Closed form of `split_into`: both halves and the popup key are pieces of the virtual node. -/
theorem split_spec (W : Nat) (a r0 : Arr P) (p k : Nat) (c : P) (hW : 1 ≤ W) (hfull : a.nkeys = W) (hp : p ≤ W) :
    let res := splitInto W a r0 p k c
    let mid := (W + 1) / 2
    res.1.nkeys = mid ∧ res.2.1.nkeys = W - mid ∧
    (∀ j, j < mid → res.1.ikey j = vkey a p k j) ∧
    (∀ j, j ≤ mid → res.1.child j = vchild a p c j) ∧
    res.2.2.1 = vkey a p k mid ∧
    (∀ j, j < W - mid → res.2.1.ikey j = vkey a p k (mid + 1 + j)) ∧
    (∀ j, j ≤ W - mid → res.2.1.child j = vchild a p c (mid + 1 + j)) ∧
    (res.2.2.2 = true ↔ p < mid) := by
  simp only [splitInto]
  by_cases c1 : p < (W + 1) / 2
  · rw [if_pos c1]
    simp only
    refine ⟨?_, trivial, ?_, ?_, ?_, ?_, ?_, by simp [c1]⟩
    · simp only [insert_nkeys]; omega
    · intro j hj
      rw [insert_ikey _ _ _ _ (by simp only; omega) _ (by simp only; omega)]
      rfl
    · intro j hj
      rw [insert_child _ _ _ _ (by simp only; omega) _ (by simp only; omega)]
      rfl
    · unfold vkey
      rw [if_neg (by omega), if_neg (by omega)]
    · intro j hj
      rw [(shiftFrom_spec _ _ _ _ _).2.1 j, if_pos (by omega)]
      unfold vkey
      rw [if_neg (by omega), if_neg (by omega)]
      congr 1; omega
    · intro j hj
      rw [(shiftFrom_spec _ _ _ _ _).2.2 j]
      unfold vchild
      by_cases e : j = 0
      · subst e
        rw [if_neg (by omega), if_neg (by omega), if_neg (by omega)]
        simp [upd]
      · rw [if_pos (by omega), if_neg (by omega), if_neg (by omega)]
        congr 1; omega
  · rw [if_neg c1]
    by_cases c2 : p = (W + 1) / 2
    · rw [if_pos c2]
      simp only
      refine ⟨trivial, trivial, ?_, ?_, ?_, ?_, ?_, by simp [c1]⟩
      · intro j hj
        unfold vkey
        rw [if_pos (by omega)]
      · intro j hj
        unfold vchild
        rw [if_pos (by omega)]
      · unfold vkey
        rw [if_neg (by omega), if_pos (by omega)]
      · intro j hj
        rw [(shiftFrom_spec _ _ _ _ _).2.1 j, if_pos (by omega)]
        unfold vkey
        rw [if_neg (by omega), if_neg (by omega)]
        congr 1; omega
      · intro j hj
        rw [(shiftFrom_spec _ _ _ _ _).2.2 j]
        unfold vchild
        by_cases e : j = 0
        · subst e
          rw [if_neg (by omega), if_neg (by omega), if_pos (by omega)]
          simp [upd]
        · rw [if_pos (by omega), if_neg (by omega), if_neg (by omega)]
          congr 1; omega
    · rw [if_neg c2]
      simp only
      refine ⟨trivial, trivial, ?_, ?_, ?_, ?_, ?_, by simp [c1]⟩
      · intro j hj
        unfold vkey
        rw [if_pos (by omega)]
      · intro j hj
        unfold vchild
        rw [if_pos (by omega)]
      · unfold vkey
        rw [if_pos (by omega)]
      · intro j hj
        rw [(shiftFrom_spec _ _ _ _ _).2.1 j]
        unfold vkey
        by_cases e : j < p - ((W + 1) / 2 + 1)
        · rw [if_neg (by omega), if_pos (by omega)]
          simp only [upd]
          rw [if_neg (by omega), (shiftFrom_spec _ _ _ _ _).2.1 j, if_pos (by omega)]
          congr 1
        · by_cases e2 : j = p - ((W + 1) / 2 + 1)
          · rw [if_neg (by omega), if_neg (by omega), if_pos (by omega)]
            simp only [upd]
            rw [if_pos e2]
          · rw [if_pos (by omega), if_neg (by omega), if_neg (by omega)]
            congr 1; omega
      · intro j hj
        rw [(shiftFrom_spec _ _ _ _ _).2.2 j]
        unfold vchild
        by_cases e : j ≤ p - ((W + 1) / 2 + 1)
        · rw [if_neg (by omega), if_pos (by omega)]
          simp only [upd]
          rw [if_neg (by omega), (shiftFrom_spec _ _ _ _ _).2.2 j]
          by_cases e0 : j = 0
          · subst e0
            rw [if_neg (by omega)]; simp [upd]
          · rw [if_pos (by omega)]
            congr 1; omega
        · by_cases e2 : j = p - ((W + 1) / 2 + 1) + 1
          · rw [if_neg (by omega), if_neg (by omega), if_pos (by omega)]
            simp only [upd]
            rw [if_pos e2]
          · rw [if_pos (by omega), if_neg (by omega), if_neg (by omega)]
            congr 1; omega

theorem findLoop_spec (ikey : Nat → Nat) (t n : Nat) (hs : ∀ i j, i ≤ j → j < n → ikey i ≤ ikey j) (lo hi : Nat)
    (hlh : lo ≤ hi) (hh : hi ≤ n) (h1 : ∀ i, i < lo → ikey i < t) (h2 : ∀ i, hi ≤ i → i < n → t ≤ ikey i) :
    findLoop ikey t lo hi ≤ n ∧ (∀ i, i < findLoop ikey t lo hi → ikey i < t) ∧
    (∀ i, findLoop ikey t lo hi ≤ i → i < n → t ≤ ikey i) := by
  fun_induction findLoop ikey t lo hi with
  | case1 lo hi h mid hm ih =>
    apply ih (by omega) (by omega) _ h2
    intro i hi'
    exact Nat.lt_of_le_of_lt (hs i mid (by omega) (by omega)) hm
  | case2 lo hi h mid hm ih =>
    apply ih (by omega) (by omega) h1
    intro i hi' hn
    exact Nat.le_trans (Nat.le_of_not_lt hm) (hs mid i hi' hn)
  | case3 lo hi h =>
    have : lo = hi := by omega
    subst this
    exact ⟨hh, h1, h2⟩

end Verif.Internode
