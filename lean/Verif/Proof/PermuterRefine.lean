import Verif.Proof.Permuter

/-! # The permuter words refine the slot-list specification -/
set_option linter.unusedSimpArgs false
set_option linter.unusedVariables false
namespace Verif.Perm
section
variable {N B W : Nat}

/-! ### Refinement to the list specification -/

/-- The abstract permuter denoted by a word. -/
def toSpec (B W : Nat) (v : BitVec N) : Spec.PermList :=
  { slots := (List.range W).map (get B v), size := size B v }

/-- Run the modelled code for one API call. -/
def runOp (B W : Nat) (v : BitVec N) : Spec.PermOp → BitVec N
  | .insertFromBack i => (insertFromBack B W v i).1
  | .removeToBack i => removeToBack B W v i
  | .remove i => remove B v i
  | .exchange i j => exchange B v i j
  | .rotate i j => rotate B W v i j
  | .swapFreeSlots i j => swapFreeSlots B v i j
  | .setSize n => setSize B v n

@[simp] theorem length_toSpec (v : BitVec N) : (toSpec B W v).slots.length = W := by simp [toSpec]
@[simp] theorem size_toSpec (v : BitVec N) : (toSpec B W v).size = size B v := rfl

theorem getElem?_toSpec (v : BitVec N) {k : Nat} (hk : k < W) :
    (toSpec B W v).slots[k]? = some (get B v k) := by
  simp [toSpec, List.getElem?_range hk]

theorem getD_toSpec (v : BitVec N) {k : Nat} (hk : k < W) :
    (toSpec B W v).slots.getD k 0 = get B v k := by
  rw [List.getD_eq_getElem?_getD, getElem?_toSpec v hk]; rfl

theorem toSpec_ext (v : BitVec N) (q : Spec.PermList) (hs : size B v = q.size)
    (hl : q.slots.length = W)
    (h : ∀ k, k < W → q.slots[k]? = some (get B v k)) : toSpec B W v = q := by
  cases q with
  | mk slots sz =>
    simp only [toSpec, Spec.PermList.mk.injEq]
    refine ⟨List.ext_getElem? ?_, hs⟩
    intro k
    rcases Nat.lt_or_ge k W with hk | hk
    · rw [h k hk]; simp [List.getElem?_range hk]
    · rw [List.getElem?_eq_none (by simpa using hk),
        List.getElem?_eq_none (by simp only at hl; omega)]

theorem swapAt_spec (p : Params N B W) (v : BitVec N) {i j k : Nat} (h1 : i < W) (h2 : j < W)
    (hk : k < W) :
    (Spec.swapAt (toSpec B W v).slots i j)[k]? = some (get B (exchange B v i j) k) := by
  rw [get_exchange p v h1 h2 hk]
  simp only [Spec.swapAt, getD_toSpec v h1, getD_toSpec v h2, List.getElem?_set,
    List.length_set, length_toSpec, getElem?_toSpec v hk]
  by_cases c1 : j = k
  · subst c1
    by_cases c2 : j = i
    · simp [c2, h1, h2]
    · simp [c2, h1, h2]
  · by_cases c2 : i = k
    · subst c2; simp [c1, h1, h2]
    · simp [c1, c2, h1, h2, Ne.symm c1, Ne.symm c2]

theorem runOp_refines (p : Params N B W) (v : BitVec N) (hv : size B v ≤ W) (op : Spec.PermOp)
    (hl : op.Legal W (toSpec B W v)) :
    toSpec B W (runOp B W v op) = op.apply W (toSpec B W v) := by
  cases op with
  | insertFromBack i =>
    obtain ⟨h1, h2⟩ := hl
    simp only [size_toSpec] at h1 h2
    refine toSpec_ext _ _ ?_ ?_ ?_
    · exact size_insertFromBack p v (by omega) h2
    · simp [Spec.PermOp.apply, List.length_insertIdx]; split <;> omega
    · intro k hk
      rw [runOp, get_insertFromBack p v (by omega) hk h2]
      simp only [Spec.PermOp.apply]
      rw [List.getElem?_insertIdx, getD_toSpec v (by omega)]
      simp only [List.length_dropLast, length_toSpec, List.getElem?_dropLast]
      split
      · rw [if_pos (by omega), getElem?_toSpec v hk]
      · split
        · rw [if_pos (by omega)]
        · rw [if_pos (by omega), getElem?_toSpec v (by omega)]
  | removeToBack i =>
    simp only [Spec.PermOp.Legal, size_toSpec] at hl
    have hlen : ((toSpec B W v).slots.eraseIdx i).length = W - 1 := by
      rw [List.length_eraseIdx, if_pos (by simp; omega)]; simp
    refine toSpec_ext _ _ ?_ ?_ ?_
    · exact size_removeToBack p v (by omega) (by omega)
    · simp only [Spec.PermOp.apply, List.length_append, hlen, List.length_singleton]; omega
    · intro k hk
      rw [runOp, get_removeToBack p v (by omega) hk (by omega)]
      simp only [Spec.PermOp.apply]
      rw [getD_toSpec v (by omega), List.getElem?_append, hlen, List.getElem?_eraseIdx]
      split
      · split
        · rw [getElem?_toSpec v hk]
        · rw [if_neg (by omega), getElem?_toSpec v (by omega)]
      · have : k = W - 1 := by omega
        rw [if_neg (by omega), if_pos this]
        simp [this]
  | remove i =>
    simp only [Spec.PermOp.Legal, size_toSpec] at hl
    have hlen : ((toSpec B W v).slots.eraseIdx i).length = W - 1 := by
      rw [List.length_eraseIdx, if_pos (by simp; omega)]; simp
    refine toSpec_ext _ _ ?_ ?_ ?_
    · exact size_remove p v hl hv
    · simp only [Spec.PermOp.apply, List.length_insertIdx, hlen, size_toSpec]; split <;> omega
    · intro k hk
      rw [runOp, get_remove p v hl hk hv]
      simp only [Spec.PermOp.apply]
      rw [List.getElem?_insertIdx, getD_toSpec v (by omega), hlen]
      simp only [size_toSpec, List.getElem?_eraseIdx]
      split
      · split
        · rw [getElem?_toSpec v hk]
        · rw [if_pos (by omega), getElem?_toSpec v (by omega)]
      · rw [if_neg (show ¬ k < i by omega), if_neg (show ¬ k + 1 < size B v by omega)]
        by_cases c : k = size B v - 1
        · rw [if_pos c, if_pos (show k + 1 = size B v by omega), if_pos (by omega)]
        · rw [if_neg c, if_neg (show ¬ k + 1 = size B v by omega), if_neg (by omega),
            getElem?_toSpec v (by omega)]
          congr 2; omega
  | exchange i j =>
    obtain ⟨h1, h2⟩ := hl
    refine toSpec_ext _ _ ?_ ?_ ?_
    · exact size_exchange p v
    · simp [Spec.PermOp.apply, Spec.swapAt]
    · intro k hk
      exact swapAt_spec p v h1 h2 hk
  | rotate i j =>
    obtain ⟨h1, h2⟩ := hl
    refine toSpec_ext _ _ ?_ ?_ ?_
    · exact size_rotate p v h1 h2
    · simp [Spec.PermOp.apply]; omega
    · intro k hk
      rw [runOp, get_rotate p v h1 h2 hk]
      simp only [Spec.PermOp.apply]
      simp only [List.getElem?_append, List.length_append, List.length_take, List.length_drop,
        length_toSpec, List.getElem?_take, List.getElem?_drop]
      split
      · split
        · rw [if_pos (by omega), if_pos (by omega), getElem?_toSpec v hk]
        · rw [if_neg (by omega), if_pos (by omega), getElem?_toSpec v (by omega)]
          congr 2; omega
      · rw [if_pos (by omega), if_neg (by omega), if_neg (by omega), getElem?_toSpec v (by omega)]
        congr 2; omega
  | swapFreeSlots i j =>
    obtain ⟨_, _, h1, h2⟩ := hl
    rw [runOp, swapFreeSlots_eq_exchange]
    refine toSpec_ext _ _ ?_ ?_ ?_
    · exact size_exchange p v
    · simp [Spec.PermOp.apply, Spec.swapAt]
    · intro k hk
      exact swapAt_spec p v h1 h2 hk
  | setSize n =>
    refine toSpec_ext _ _ ?_ ?_ ?_
    · exact size_setSize p v hl
    · simp [Spec.PermOp.apply]
    · intro k hk
      rw [runOp, get_setSize p v hl hk]
      exact getElem?_toSpec v hk

end
end Verif.Perm
