import Verif.Proof.Internode
import Mathlib.Data.List.Basic
/-!
# C26: internode insertion and split
-/
namespace Verif.Internode
variable {P : Type}

theorem vkey_list (a : Arr P) (p k : Nat) (hp : p ≤ a.nkeys) :
    (List.range (a.nkeys + 1)).map (vkey a p k) = a.keys.insertIdx p k := by
  apply List.ext_getElem?
  intro i
  rw [List.getElem?_insertIdx]
  simp only [List.getElem?_map, Arr.keys, List.length_map, List.length_range]
  by_cases h : i < a.nkeys + 1
  · rw [List.getElem?_range h]
    simp only [Option.map_some, vkey]
    by_cases h1 : i < p
    · simp [h1, List.getElem?_range (show i < a.nkeys by omega)]
    · by_cases h2 : i = p
      · subst h2; simp [h1, hp]
      · simp [h1, h2, List.getElem?_range (show i - 1 < a.nkeys by omega)]
  · rw [List.getElem?_eq_none (by simpa using h)]
    simp only [Option.map_none]
    rw [if_neg (by omega), if_neg (by omega), List.getElem?_eq_none (by simp; omega)]
    rfl

theorem vchild_list (a : Arr P) (p : Nat) (c : P) (hp : p ≤ a.nkeys) :
    (List.range (a.nkeys + 2)).map (vchild a p c) = a.kids.insertIdx (p + 1) c := by
  apply List.ext_getElem?
  intro i
  rw [List.getElem?_insertIdx]
  simp only [List.getElem?_map, Arr.kids, List.length_map, List.length_range]
  by_cases h : i < a.nkeys + 2
  · rw [List.getElem?_range h]
    simp only [Option.map_some, vchild]
    by_cases h1 : i ≤ p
    · rw [if_pos h1, if_pos (by omega), List.getElem?_range (by omega)]; rfl
    · by_cases h2 : i = p + 1
      · subst h2; rw [if_neg h1, if_pos rfl, if_neg (by omega), if_pos rfl, if_pos (by omega)]
      · rw [if_neg h1, if_neg h2, if_neg (by omega), if_neg h2, List.getElem?_range (by omega)]; rfl
  · rw [List.getElem?_eq_none (by simpa using h)]
    simp only [Option.map_none]
    rw [if_neg (by omega), if_neg (by omega), List.getElem?_eq_none (by simp; omega)]
    rfl

/-- **C26.** Inserting a separator at position `p` and a child right of it into a node that is not full gives exactly the
key list with the separator inserted at `p` and the child list with the child inserted at `p + 1`. -/
theorem C26_insert (a : Arr P) (p k : Nat) (c : P) (hp : p ≤ a.nkeys) :
    (insertKeyAndChild a p k c).keys = a.keys.insertIdx p k ∧
    (insertKeyAndChild a p k c).kids = a.kids.insertIdx (p + 1) c := by
  constructor
  · rw [← vkey_list a p k hp]
    unfold Arr.keys
    apply List.map_congr_left
    intro j hj
    rw [insert_nkeys, List.mem_range] at hj
    exact insert_ikey a p k c hp j (by omega)
  · rw [← vchild_list a p c hp]
    unfold Arr.kids
    apply List.map_congr_left
    intro j hj
    rw [insert_nkeys, List.mem_range] at hj
    exact insert_child a p k c hp j (by omega)

/-- **C26.** Splitting a full node of any width while inserting: left keys, promoted key and right keys concatenated are
the key list with the separator inserted; left and right children concatenated are the child list with the child
inserted; the halves have `⌈W/2⌉` and `W - ⌈W/2⌉` keys; the flag says whether the new child is in the left half. -/
theorem C26_split (W : Nat) (hW : 1 ≤ W) (a r0 : Arr P) (hfull : a.nkeys = W) (p k : Nat) (c : P) (hp : p ≤ W) :
    let res := splitInto W a r0 p k c
    res.1.keys ++ res.2.2.1 :: res.2.1.keys = a.keys.insertIdx p k ∧
    res.1.kids ++ res.2.1.kids = a.kids.insertIdx (p + 1) c ∧
    res.1.keys.length = (W + 1) / 2 ∧ res.2.1.keys.length = W - (W + 1) / 2 ∧
    (res.2.2.2 = true ↔ p + 1 < res.1.kids.length) := by
  obtain ⟨h1, h2, h3, h4, h5, h6, h7, h8⟩ := split_spec W a r0 p k c hW hfull hp
  simp only at h1 h2 h3 h4 h5 h6 h7 h8 ⊢
  generalize splitInto W a r0 p k c = res at *
  obtain ⟨l, r, popup, b⟩ := res
  simp only at h1 h2 h3 h4 h5 h6 h7 h8 ⊢
  refine ⟨?_, ?_, by simp [Arr.keys, h1], by simp [Arr.keys, h2], ?_⟩
  · rw [← vkey_list a p k (by omega), hfull]
    have e : List.range (W + 1) = List.range ((W + 1) / 2) ++ (W + 1) / 2 ::
        (List.range (W - (W + 1) / 2)).map (fun x => (W + 1) / 2 + 1 + x) := by
      have e1 : W + 1 = (W + 1) / 2 + (1 + (W - (W + 1) / 2)) := by omega
      conv => lhs; rw [e1, List.range_add, Nat.add_comm 1, List.range_succ_eq_map]
      simp [Function.comp_def]
      intro x _; omega
    rw [e, List.map_append, List.map_cons, List.map_map, h5]
    congr 1
    · unfold Arr.keys; rw [h1]
      exact List.map_congr_left (fun j hj => h3 j (List.mem_range.1 hj))
    · congr 1
      unfold Arr.keys; rw [h2]
      exact List.map_congr_left (fun j hj => h6 j (List.mem_range.1 hj))
  · rw [← vchild_list a p c (by omega), hfull]
    have e : List.range (W + 2) = List.range ((W + 1) / 2 + 1) ++
        (List.range (W - (W + 1) / 2 + 1)).map (fun x => (W + 1) / 2 + 1 + x) := by
      have e1 : W + 2 = ((W + 1) / 2 + 1) + (W - (W + 1) / 2 + 1) := by omega
      conv => lhs; rw [e1, List.range_add]
    rw [e, List.map_append, List.map_map]
    congr 1
    · unfold Arr.kids; rw [h1]
      exact List.map_congr_left (fun j hj => h4 j (by have := List.mem_range.1 hj; omega))
    · unfold Arr.kids; rw [h2]
      exact List.map_congr_left (fun j hj => h7 j (by have := List.mem_range.1 hj; omega))
  · rw [h8]; simp [Arr.kids, h1]

/-- **C26.** The insert position on sorted keys: everything before is smaller, nothing from it on is smaller. -/
theorem C26_find_insert_position (a : Arr P) (t : Nat) (hs : ∀ i j, i ≤ j → j < a.nkeys → a.ikey i ≤ a.ikey j) :
    findInsertPosition a t ≤ a.nkeys ∧ (∀ i, i < findInsertPosition a t → a.ikey i < t) ∧
    (∀ i, findInsertPosition a t ≤ i → i < a.nkeys → t ≤ a.ikey i) :=
  findLoop_spec a.ikey t a.nkeys hs 0 a.nkeys (by omega) (by omega) (fun i h => by omega) (fun i h1 h2 => by omega)

/-- **C26.** Splitting keeps routing: if the keys with the separator inserted are sorted, every key of the left half is at
most the promoted key and every key of the right half at least it. -/
theorem C26_split_sorted (W : Nat) (hW : 1 ≤ W) (a r0 : Arr P) (hfull : a.nkeys = W) (p k : Nat) (c : P) (hp : p ≤ W)
    (hs : (a.keys.insertIdx p k).Pairwise (· ≤ ·)) :
    let res := splitInto W a r0 p k c
    (∀ x ∈ res.1.keys, x ≤ res.2.2.1) ∧ (∀ x ∈ res.2.1.keys, res.2.2.1 ≤ x) ∧
    res.1.keys.Pairwise (· ≤ ·) ∧ res.2.1.keys.Pairwise (· ≤ ·) := by
  obtain ⟨h1, _, _, _, _⟩ := C26_split W hW a r0 hfull p k c hp
  simp only at h1 ⊢
  rw [← h1, List.pairwise_append] at hs
  obtain ⟨s1, s2, s3⟩ := hs
  rw [List.pairwise_cons] at s2
  exact ⟨fun x hx => s3 x hx _ (by simp), s2.1, s1, s2.2⟩

/-- A full node of width 15 to which the theorems apply. -/
example : let a : Arr Nat := ⟨15, fun i => 10 * i, fun i => 100 + i⟩
    (splitInto 15 a ⟨0, fun _ => 0, fun _ => 0⟩ 11 105 7).2.2.1 = 80 ∧
    (a.keys.insertIdx 11 105).Pairwise (· ≤ ·) := by decide

end Verif.Internode
