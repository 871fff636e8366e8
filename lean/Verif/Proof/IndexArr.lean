import Verif.Model.IndexRace
import Verif.Proof.Internode
set_option linter.unusedSimpArgs false
set_option linter.unusedVariables false
/-! Arrays of internodes: stores of an insertion, cells after a split, search for a child. -/
namespace Verif.Index
open Verif.Internode
variable {V : Type}

theorem shiftStores_fold (a : Arr Nat) (p : Nat) : ∀ (k : Nat) (b : Arr Nat), (∀ j, j < p + k → b.ikey j = a.ikey j) →
    (∀ j, j ≤ p + k → b.child j = a.child j) → (shiftStores a p k).foldl Store.apply b = shiftRight p k b
  | 0, _, _, _ => rfl
  | k + 1, b, h1, h2 => by
    simp only [shiftStores, List.foldl_cons, Store.apply, shiftRight]
    rw [h1 (p + k) (by omega), h2 (p + k + 1) (by omega)]
    apply shiftStores_fold a p k
    · intro j hj
      simp only
      rw [upd_ne _ _ _ (by omega)]
      exact h1 j (by omega)
    · intro j hj
      simp only
      rw [upd_ne _ _ _ (by omega)]
      exact h2 j (by omega)

theorem shiftRight_nkeys (p : Nat) : ∀ (k : Nat) (b : Arr Nat), (shiftRight p k b).nkeys = b.nkeys
  | 0, _ => rfl
  | k + 1, b => by simp only [shiftRight]; rw [shiftRight_nkeys p k]

/-- All stores together are `insert_key_and_child`. -/
theorem insertStores_fold (a : Arr Nat) (p ik c : Nat) (hp : p ≤ a.nkeys) :
    (insertStores a p ik c).foldl Store.apply a = insertKeyAndChild a p ik c := by
  unfold insertStores insertKeyAndChild
  rw [List.foldl_append, shiftStores_fold a p _ a (fun _ _ => rfl) (fun _ _ => rfl)]
  simp only [List.foldl_cons, List.foldl_nil, Store.apply]

theorem shiftStores_child {a : Arr Nat} {p : Nat} : ∀ {k i c : Nat}, .child i c ∈ shiftStores a p k → ∃ j, j ≤ p + k ∧ c = a.child j
  | 0, _, _, h => by simp [shiftStores] at h
  | k + 1, i, c, h => by
    simp only [shiftStores, List.mem_cons, reduceCtorEq, Store.child.injEq, false_or] at h
    rcases h with ⟨_, h⟩ | h
    · exact ⟨p + k + 1, by omega, h⟩
    · obtain ⟨j, h1, h2⟩ := shiftStores_child h
      exact ⟨j, by omega, h2⟩

/-- A pointer stored by an insertion is the new child or was a child. -/
theorem insertStores_child {a : Arr Nat} {p ik y i c : Nat} (hp : p ≤ a.nkeys) (h : .child i c ∈ insertStores a p ik y) :
    c = y ∨ ∃ j, j ≤ a.nkeys ∧ c = a.child j := by
  simp only [insertStores, List.mem_append, List.mem_cons, reduceCtorEq, Store.child.injEq, false_or, List.not_mem_nil, or_false] at h
  rcases h with h | h
  · obtain ⟨j, h1, h2⟩ := shiftStores_child h
    exact .inr ⟨j, by omega, h2⟩
  · exact .inl h.2

section cells
variable {P : Nat → Prop}

theorem shiftRight_cells (p : Nat) : ∀ (k : Nat) (a : Arr Nat), (∀ i, P (a.child i)) → ∀ i, P ((shiftRight p k a).child i)
  | 0, _, h => h
  | k + 1, a, h => by
    simp only [shiftRight]
    apply shiftRight_cells p k
    intro i
    simp only [upd]
    split
    · exact h _
    · exact h _

theorem insert_cells {a : Arr Nat} {p k c : Nat} (h : ∀ i, P (a.child i)) (hc : P c) (i : Nat) : P ((insertKeyAndChild a p k c).child i) := by
  simp only [insertKeyAndChild, upd]
  split
  · exact hc
  · exact shiftRight_cells p _ a h i

theorem shiftFrom_cells {d s : Arr Nat} {dp sp : Nat} (hd : ∀ i, P (d.child i)) (hs : ∀ i, P (s.child i)) :
    ∀ n i, P ((shiftFrom d dp s sp n).child i)
  | 0, i => hd i
  | n + 1, i => by
    simp only [shiftFrom, upd]
    split
    · exact hs _
    · exact shiftFrom_cells hd hs n i

theorem split_cells {W : Nat} {a r : Arr Nat} {p k c : Nat} (ha : ∀ i, P (a.child i)) (hr : ∀ i, P (r.child i)) (hc : P c) :
    (∀ i, P ((splitInto W a r p k c).1.child i)) ∧ ∀ i, P ((splitInto W a r p k c).2.1.child i) := by
  have hu : ∀ (x : Arr Nat) (j z : Nat), (∀ i, P (x.child i)) → P z → ∀ i, P (upd x.child j z i) := by
    intro x j z hx hz i
    simp only [upd]
    split
    · exact hz
    · exact hx i
  unfold splitInto
  simp only
  split
  · refine ⟨fun i => insert_cells (by exact ha) hc i, fun i => ?_⟩
    exact shiftFrom_cells (by exact hu r _ _ hr (ha _)) ha _ i
  · split
    · exact ⟨ha, fun i => shiftFrom_cells (by exact hu r _ _ hr hc) ha _ i⟩
    · refine ⟨ha, fun i => ?_⟩
      refine shiftFrom_cells ?_ ha _ i
      exact hu _ _ _ (fun i => shiftFrom_cells (by exact hu r _ _ hr (ha _)) ha _ i) hc

end cells

theorem findChild_some {a : Arr Nat} {c : Nat} : ∀ {n i j : Nat}, findChild a c i n = some j → i ≤ j ∧ j < i + n ∧ a.child j = c
  | 0, _, _, h => by simp [findChild] at h
  | n + 1, i, j, h => by
    simp only [findChild] at h
    split at h
    · cases h; exact ⟨by omega, by omega, by assumption⟩
    · have := findChild_some h; exact ⟨by omega, by omega, this.2.2⟩

theorem findChild_none {a : Arr Nat} {c : Nat} : ∀ {n i : Nat}, findChild a c i n = none → ∀ j, i ≤ j → j < i + n → a.child j ≠ c
  | 0, _, _, j, h1, h2 => by omega
  | n + 1, i, h, j, h1, h2 => by
    simp only [findChild] at h
    split at h
    · cases h
    · by_cases e : j = i
      · subst e; assumption
      · exact findChild_none h j (by omega) (by omega)

end Verif.Index
