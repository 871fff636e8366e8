import Verif.Model.KSearch
import Verif.Proof.Permuter
import Verif.Prop.Permuter
set_option linter.unusedSimpArgs false
set_option linter.unusedVariables false
/-!
# C23: searching a node
-/
namespace Verif.KSearch

/-- Number of the `n` keys `key 0, .., key (n-1)` that are below `t`. -/
def countLt (key : Nat → Nat) (t n : Nat) : Nat := ((List.range n).filter fun i => decide (key i < t)).length
/-- Number of the `n` keys that are at most `t`. -/
def countLe (key : Nat → Nat) (t n : Nat) : Nat := ((List.range n).filter fun i => decide (key i ≤ t)).length

/-- Strictly increasing on the first `n` positions. -/
def StrictOn (key : Nat → Nat) (n : Nat) : Prop := ∀ i j, i < j → j < n → key i < key j
/-- Non-decreasing on the first `n` positions. -/
def SortedOn (key : Nat → Nat) (n : Nat) : Prop := ∀ i j, i ≤ j → j < n → key i ≤ key j

theorem StrictOn.sorted {key : Nat → Nat} {n : Nat} (h : StrictOn key n) : SortedOn key n := by
  intro i j hij hj
  rcases Nat.lt_or_eq_of_le hij with h1 | rfl
  · exact Nat.le_of_lt (h i j h1 hj)
  · exact Nat.le_refl _

theorem count_eq {p : Nat → Bool} {n c : Nat} (hc : c ≤ n) (h1 : ∀ i, i < c → p i = true)
    (h2 : ∀ i, c ≤ i → i < n → p i = false) : ((List.range n).filter p).length = c := by
  obtain ⟨d, rfl⟩ := Nat.exists_eq_add_of_le hc
  rw [List.range_add, List.filter_append, List.filter_eq_self.2, List.filter_eq_nil_iff.2]
  · simp
  · intro a ha
    simp only [List.mem_map, List.mem_range] at ha
    obtain ⟨x, hx, rfl⟩ := ha
    rw [h2 _ (by omega) (by omega)]; simp
  · intro a ha
    exact h1 a (by simpa using ha)

/-- A cut position: everything before is `< t`, everything from it on is `≥ t`. -/
theorem countLt_eq {key : Nat → Nat} {t n c : Nat} (hc : c ≤ n) (h1 : ∀ i, i < c → key i < t)
    (h2 : ∀ i, c ≤ i → i < n → t ≤ key i) : countLt key t n = c :=
  count_eq hc (fun i hi => by simpa using h1 i hi) (fun i hi hn => by simpa using h2 i hi hn)

theorem countLe_eq {key : Nat → Nat} {t n c : Nat} (hc : c ≤ n) (h1 : ∀ i, i < c → key i ≤ t)
    (h2 : ∀ i, c ≤ i → i < n → t < key i) : countLe key t n = c :=
  count_eq hc (fun i hi => by simpa using h1 i hi) (fun i hi hn => by simpa using h2 i hi hn)

section
variable {key : Nat → Nat} {t n : Nat} {pg : Nat → Nat}

theorem cmp_lt {a b : Nat} : compare a b = .lt ↔ a < b := Nat.compare_eq_lt
theorem cmp_eq {a b : Nat} : compare a b = .eq ↔ a = b := Nat.compare_eq_eq
theorem cmp_gt {a b : Nat} : compare a b = .gt ↔ b < a := Nat.compare_eq_gt

theorem lowerLoop_spec (hs : SortedOn (fun i => key (pg i)) n) (l r : Nat) (hlr : l ≤ r) (hr : r ≤ n)
    (h1 : ∀ i, i < l → key (pg i) < t) (h2 : ∀ i, r ≤ i → i < n → t < key (pg i)) :
    let x := lowerLoop pg (fun s => compare t (key s)) l r
    (x.p = none → x.i ≤ n ∧ (∀ i, i < x.i → key (pg i) < t) ∧ (∀ i, x.i ≤ i → i < n → t < key (pg i))) ∧
    (∀ s, x.p = some s → x.i < n ∧ s = pg x.i ∧ key s = t) := by
  fun_induction lowerLoop pg (fun s => compare t (key s)) l r with
  | case1 l r h m hm ih =>
    have hm' := cmp_lt.1 hm
    apply ih (by omega) (by omega) h1
    intro i hi hn
    exact Nat.lt_of_lt_of_le hm' (hs m i hi hn)
  | case2 l r h m hm =>
    refine ⟨fun h => by simp [Pos.found] at h, ?_⟩
    intro s hs'
    simp only [Pos.found, Option.some.injEq] at hs' ⊢
    subst hs'
    exact ⟨by omega, rfl, (cmp_eq.1 hm).symm⟩
  | case3 l r h m hm ih =>
    have hm' := cmp_gt.1 hm
    apply ih (by omega) (by omega) _ h2
    intro i hi
    exact Nat.lt_of_le_of_lt (hs i m (by omega) (by omega)) hm'
  | case4 l r h =>
    have : l = r := by omega
    subst this
    exact ⟨fun _ => ⟨hr, h1, h2⟩, fun s h => by simp [Pos.notFound] at h⟩

theorem upperLoop_spec (hs : SortedOn (fun i => key (pg i)) n) (l r : Nat) (hlr : l ≤ r) (hr : r ≤ n)
    (h1 : ∀ i, i < l → key (pg i) < t) (h2 : ∀ i, r ≤ i → i < n → t < key (pg i)) :
    let x := upperLoop pg (fun s => compare t (key s)) l r
    (x ≤ n ∧ (∀ i, i < x → key (pg i) < t) ∧ (∀ i, x ≤ i → i < n → t < key (pg i))) ∨
    (1 ≤ x ∧ x ≤ n ∧ key (pg (x - 1)) = t) := by
  fun_induction upperLoop pg (fun s => compare t (key s)) l r with
  | case1 l r h m hm ih =>
    have hm' := cmp_lt.1 hm
    apply ih (by omega) (by omega) h1
    intro i hi hn
    exact Nat.lt_of_lt_of_le hm' (hs m i hi hn)
  | case2 l r h m hm =>
    right
    exact ⟨by omega, by omega, (cmp_eq.1 hm).symm⟩
  | case3 l r h m hm ih =>
    have hm' := cmp_gt.1 hm
    apply ih (by omega) (by omega) _ h2
    intro i hi
    exact Nat.lt_of_le_of_lt (hs i m (by omega) (by omega)) hm'
  | case4 l r h =>
    have : l = r := by omega
    subst this
    exact Or.inl ⟨hr, h1, h2⟩

theorem lowerLin_spec (hs : SortedOn (fun i => key (pg i)) n) : ∀ (k i : Nat), i + k = n →
    (∀ j, j < i → key (pg j) < t) →
    let x := lowerLinLoop pg (fun s => compare t (key s)) i k
    x.i ≤ n ∧ (∀ j, j < x.i → key (pg j) < t) ∧ (∀ j, x.i ≤ j → j < n → t ≤ key (pg j)) ∧
    (x.p = none → ∀ j, x.i ≤ j → j < n → t < key (pg j)) ∧
    (∀ s, x.p = some s → x.i < n ∧ s = pg x.i ∧ key s = t) := by
  intro k
  induction k with
  | zero =>
    intro i hi h1
    simp only [lowerLinLoop, Pos.notFound]
    exact ⟨by omega, h1, fun j _ _ => by omega, fun _ j _ _ => by omega, fun s h => by simp at h⟩
  | succ k ih =>
    intro i hi h1
    simp only [lowerLinLoop]
    split
    · rename_i hm
      have hm' := cmp_lt.1 hm
      have key' : ∀ j, i ≤ j → j < n → t < key (pg j) := fun j hj hn => Nat.lt_of_lt_of_le hm' (hs i j hj hn)
      exact ⟨by simp [Pos.notFound]; omega, h1, fun j hj hn => Nat.le_of_lt (key' j hj hn), fun _ => key',
        fun s h => by simp [Pos.notFound] at h⟩
    · rename_i hm
      have hm' := cmp_eq.1 hm
      refine ⟨by simp [Pos.found]; omega, h1, fun j hj hn => hm' ▸ hs i j hj hn, fun h => by simp [Pos.found] at h, ?_⟩
      intro s h
      simp only [Pos.found, Option.some.injEq] at h ⊢
      subst h
      exact ⟨by omega, rfl, hm'.symm⟩
    · rename_i hm
      have hm' := cmp_gt.1 hm
      apply ih (i + 1) (by omega)
      intro j hj
      rcases Nat.lt_or_ge j i with h | h
      · exact h1 j h
      · have : j = i := by omega
        rw [this]; exact hm'

theorem upperLin_spec (hs : SortedOn (fun i => key (pg i)) n) : ∀ (k i : Nat), i + k = n →
    (∀ j, j < i → key (pg j) < t) →
    let x := upperLinLoop pg (fun s => compare t (key s)) i k
    (x ≤ n ∧ (∀ j, j < x → key (pg j) < t) ∧ (∀ j, x ≤ j → j < n → t < key (pg j))) ∨
    (1 ≤ x ∧ x ≤ n ∧ key (pg (x - 1)) = t ∧ ∀ j, j < x - 1 → key (pg j) < t) := by
  intro k
  induction k with
  | zero =>
    intro i hi h1
    exact Or.inl ⟨by simp [upperLinLoop]; omega, h1, fun j h2 _ => by simp only [upperLinLoop] at h2; omega⟩
  | succ k ih =>
    intro i hi h1
    simp only [upperLinLoop]
    split
    · rename_i hm
      have hm' := cmp_lt.1 hm
      exact Or.inl ⟨by omega, h1, fun j hj hn => Nat.lt_of_lt_of_le hm' (hs i j hj hn)⟩
    · rename_i hm
      exact Or.inr ⟨by omega, by omega, (cmp_eq.1 hm).symm, fun j hj => h1 j (by omega)⟩
    · rename_i hm
      have hm' := cmp_gt.1 hm
      apply ih (i + 1) (by omega)
      intro j hj
      rcases Nat.lt_or_ge j i with h | h
      · exact h1 j h
      · have : j = i := by omega
        rw [this]; exact hm'
end

/-- What a lower-bound search must return: the number of smaller keys, and the slot there if its key is the target. -/
def lowerSpec (key : Nat → Nat) (pg : Nat → Nat) (t n : Nat) : Pos :=
  let c := countLt (fun i => key (pg i)) t n
  if c < n ∧ key (pg c) = t then ⟨c, some (pg c)⟩ else ⟨c, none⟩

/-- **C23.** On strictly increasing keys (in permutation order) the binary and the linear lower-bound search both return
the number of smaller keys, together with the slot holding the target if there is one. -/
theorem C23_lower_bound (key : Nat → Nat) (pg : Nat → Nat) (t n : Nat) (hs : StrictOn (fun i => key (pg i)) n) :
    lowerBoundBy n pg (fun s => compare t (key s)) = lowerSpec key pg t n ∧
    lowerBoundLinearBy n pg (fun s => compare t (key s)) = lowerSpec key pg t n := by
  have fin : ∀ x : Pos, (x.p = none → x.i ≤ n ∧ (∀ i, i < x.i → key (pg i) < t) ∧
      (∀ i, x.i ≤ i → i < n → t < key (pg i))) →
      (∀ s, x.p = some s → x.i < n ∧ s = pg x.i ∧ key s = t) → x = lowerSpec key pg t n := by
    intro x h1 h2
    unfold lowerSpec
    cases hp : x.p with
    | none =>
      obtain ⟨a, b, c⟩ := h1 hp
      have e : countLt (fun i => key (pg i)) t n = x.i := countLt_eq a b (fun i hi hn => Nat.le_of_lt (c i hi hn))
      simp only [e]
      rw [if_neg]
      · cases x; simp_all
      · rintro ⟨h3, h4⟩
        have := c x.i (Nat.le_refl _) h3
        omega
    | some s =>
      obtain ⟨a, b, c⟩ := h2 s hp
      subst b
      have e : countLt (fun i => key (pg i)) t n = x.i := by
        apply countLt_eq (by omega)
        · intro i hi; rw [← c]; exact hs i x.i hi a
        · intro i hi hn; rw [← c]; exact hs.sorted x.i i hi hn
      simp only [e]
      rw [if_pos ⟨a, c⟩]
      cases x; simp_all
  constructor
  · have := lowerLoop_spec (t := t) hs.sorted 0 n (by omega) (by omega) (fun i h => by omega) (fun i h1 h2 => by omega)
    exact fin _ this.1 this.2
  · obtain ⟨a, b, c, d, e⟩ := lowerLin_spec (t := t) hs.sorted n 0 (by omega) (fun i h => by omega)
    exact fin _ (fun h => ⟨a, b, d h⟩) e

/-- **C23.** In words: the search says found exactly if one of the `n` keys is the target, and the slot it hands out is one that holds it. -/
theorem C23_found_iff_present (key : Nat → Nat) (pg : Nat → Nat) (t n : Nat) (hs : StrictOn (fun i => key (pg i)) n) :
    ((lowerBoundBy n pg fun s => compare t (key s)).isFound = true ↔ ∃ i, i < n ∧ key (pg i) = t) ∧
    ∀ s, (lowerBoundBy n pg fun s => compare t (key s)).trySlot = some s ↔ ∃ i, i < n ∧ s = pg i ∧ key s = t := by
  have sp := lowerLoop_spec (t := t) hs.sorted 0 n (by omega) (by omega) (fun i h => by omega) (fun i h1 h2 => by omega)
  simp only [lowerBoundBy]
  revert sp
  generalize lowerLoop pg (fun s => compare t (key s)) 0 n = x
  intro ⟨h1, h2⟩
  have inj : ∀ i j, i < n → j < n → key (pg i) = key (pg j) → i = j := by
    intro i j hi hj e
    rcases Nat.lt_trichotomy i j with h | h | h
    · have := hs i j h hj; simp only at this; omega
    · exact h
    · have := hs j i h hi; simp only at this; omega
  unfold Pos.isFound Pos.trySlot
  cases hp : x.p with
  | none =>
    obtain ⟨_, a, b⟩ := h1 hp
    have no : ∀ i, i < n → key (pg i) ≠ t := by
      intro i hi e
      by_cases h : i < x.i
      · have := a i h; omega
      · have := b i (by omega) hi; omega
    refine ⟨by simpa using no, fun s => ⟨fun h => by simp at h, ?_⟩⟩
    rintro ⟨i, hi, rfl, e⟩
    exact absurd e (no i hi)
  | some s =>
    obtain ⟨a, b, c⟩ := h2 s hp
    refine ⟨by simpa using ⟨x.i, a, b ▸ c⟩, fun s' => ⟨fun h => ?_, ?_⟩⟩
    · cases h; exact ⟨x.i, a, b, c⟩
    · rintro ⟨i, hi, rfl, e⟩
      rw [b, inj i x.i hi a (by rw [e, ← b, c])]

/-- Three keys 10, 20, 30 stored in slots 2, 0, 1. -/
example : (lowerBoundBy 3 (fun i => (i + 2) % 3) fun s => compare 20 ((fun s => [20, 30, 10].getD s 0) s)).trySlot = some 0 := by decide +kernel


/-- **C23.** On strictly increasing keys the binary and the linear upper-bound search both return the number of keys at
most the target. -/
theorem C23_upper_bound (key : Nat → Nat) (pg : Nat → Nat) (t n : Nat) (hs : StrictOn (fun i => key (pg i)) n) :
    upperBoundBy n pg (fun s => compare t (key s)) = countLe (fun i => key (pg i)) t n ∧
    upperBoundLinearBy n pg (fun s => compare t (key s)) = countLe (fun i => key (pg i)) t n := by
  have fin : ∀ x : Nat, ((x ≤ n ∧ (∀ i, i < x → key (pg i) < t) ∧ (∀ i, x ≤ i → i < n → t < key (pg i))) ∨
      (1 ≤ x ∧ x ≤ n ∧ key (pg (x - 1)) = t)) → x = countLe (fun i => key (pg i)) t n := by
    intro x h
    symm
    rcases h with ⟨a, b, c⟩ | ⟨a, b, c⟩
    · exact countLe_eq a (fun i hi => Nat.le_of_lt (b i hi)) c
    · apply countLe_eq b
      · intro i hi; rw [← c]; exact hs.sorted i (x - 1) (by omega) (by omega)
      · intro i hi hn; rw [← c]; exact hs (x - 1) i (by omega) hn
  constructor
  · exact fin _ (upperLoop_spec hs.sorted 0 n (by omega) (by omega) (fun i h => by omega) (fun i h1 h2 => by omega))
  · rcases upperLin_spec (t := t) hs.sorted n 0 (by omega) (fun i h => by omega) with h | ⟨a, b, c, _⟩
    · exact fin _ (Or.inl h)
    · exact fin _ (Or.inr ⟨a, b, c⟩)

/-- **C23.** The three internode searches (identity permuter of any width up to 15, direct, generic) return the number of
keys at most the target, i.e. the index of the child to follow. -/
theorem C23_internode (W : Nat) (h1 : 1 ≤ W) (h15 : W ≤ 15) (t n : Nat) (hn : n ≤ W) (ikey : Nat → Nat)
    (hs : StrictOn ikey n) :
    upperBoundInternode W t n ikey = countLe ikey t n ∧ upperBoundDirect t n ikey = countLe ikey t n := by
  have hg : ∀ i, i < n → Perm.get 4 (Perm.makeSorted64 W n) i = i := by
    intro i hi
    have h2 : ∀ W, W < 16 → ∀ n, n < W + 1 → ∀ i, i < n → Perm.get 4 (Perm.makeSorted64 W n) i = i := by
      decide +kernel
    exact h2 W (by omega) n (by omega) i hi
  constructor
  · have hs' : StrictOn (fun i => ikey (Perm.get 4 (Perm.makeSorted64 W n) i)) n := by
      intro i j hij hj
      simp only [hg i (by omega), hg j hj]
      exact hs i j hij hj
    have h := (C23_upper_bound ikey (Perm.get 4 (Perm.makeSorted64 W n)) t n hs').1
    rw [upperBoundInternode, h]
    unfold countLe
    congr 1
    apply List.filter_congr
    intro i hi
    simp only [List.mem_range] at hi
    simp only [hg i hi]
  · exact (C23_upper_bound ikey id t n hs).1

/-- **C23**, keys that are only non-decreasing (the tree can produce equal separators, see C25): the direct search still
returns a boundary next to an equal key, or the exact boundary when no key equals the target. -/
theorem C23_internode_sorted (t n : Nat) (ikey : Nat → Nat) (hs : SortedOn ikey n) :
    let x := upperBoundDirect t n ikey
    countLt ikey t n ≤ x ∧ x ≤ countLe ikey t n ∧
    ((∃ i, i < n ∧ ikey i = t) → countLt ikey t n < x) := by
  have H := upperLoop_spec (key := ikey) (t := t) (pg := id) hs 0 n (by omega) (by omega)
    (fun i h => by omega) (fun i h1 h2 => by omega)
  simp only [id] at H
  change (upperBoundDirect t n ikey ≤ n ∧ _) ∨ _ at H
  generalize hx : upperBoundDirect t n ikey = x at H ⊢
  have hx' : upperLoop id (fun s => compare t (ikey s)) 0 n = x := hx
  simp only [hx'] at H
  -- the boundary of `< t`
  have lt_of : ∀ c, c ≤ n → (∀ i, i < c → ikey i ≤ t) → c ≤ countLe ikey t n := by
    intro c hc h
    unfold countLe
    obtain ⟨d, hd⟩ := Nat.exists_eq_add_of_le hc
    rw [hd, List.range_add, List.filter_append, List.length_append]
    rw [List.filter_eq_self.2 (fun a ha => by simpa using h a (by simpa using ha))]
    simp
  have lt_of2 : ∀ c, c ≤ n → (∀ i, c ≤ i → i < n → t ≤ ikey i) → countLt ikey t n ≤ c := by
    intro c hc h
    unfold countLt
    obtain ⟨d, hd⟩ := Nat.exists_eq_add_of_le hc
    rw [hd, List.range_add, List.filter_append, List.length_append]
    rw [(List.filter_eq_nil_iff (l := List.map (fun x => c + x) (List.range d))).2]
    · simpa using List.length_filter_le (fun i => decide (ikey i < t)) (List.range c)
    · intro a ha
      simp only [List.mem_map, List.mem_range] at ha
      obtain ⟨y, hy, rfl⟩ := ha
      have := h (c + y) (by omega) (by omega)
      simp; omega
  rcases H with ⟨a, b, c⟩ | ⟨a, b, c⟩
  · refine ⟨lt_of2 x a (fun i hi hn => Nat.le_of_lt (c i hi hn)), lt_of x a (fun i hi => Nat.le_of_lt (b i hi)), ?_⟩
    rintro ⟨i, hi, he⟩
    exfalso
    rcases Nat.lt_or_ge i x with h | h
    · have := b i h; omega
    · have := c i h hi; omega
  · have hlt : countLt ikey t n ≤ x - 1 := lt_of2 (x - 1) (by omega) (fun i hi hn => by
      rw [← c]; exact hs (x - 1) i hi hn)
    refine ⟨by omega, lt_of x b (fun i hi => by rw [← c]; exact hs i (x - 1) (by omega) (by omega)), fun _ => by omega⟩

/-- Where the two searches differ once keys repeat: on `[5, 5, 5]` binary search for 5 stops at 2, linear at 1. -/
theorem C23_duplicates_differ :
    upperBoundBy 3 id (fun s => compare 5 ((fun _ => 5) s)) = 2 ∧
    upperBoundLinearBy 3 id (fun s => compare 5 ((fun _ => 5) s)) = 1 := by
  constructor
  · simp [upperBoundBy, upperLoop]
  · simp [upperBoundLinearBy, upperLinLoop]

/-- The hypotheses hold of an ordinary node. -/
example : StrictOn (fun i => 10 * i + 3) 15 := by intro i j h _; simp; omega
example : SortedOn (fun i => i / 2) 15 := by intro i j h _; simp; omega
example : upperBoundDirect 33 15 (fun i => 10 * i + 3) = 4 := by
  rw [((C23_internode 15 (by decide) (by decide) 33 15 (by decide) _ (by intro i j h _; simp; omega)).2)]
  decide

end Verif.KSearch
