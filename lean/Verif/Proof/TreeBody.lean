import Verif.Proof.TreeLeaf
set_option linter.unusedSimpArgs false
set_option linter.unusedVariables false
/-!
# Leaf bodies: invariant, searches, insertion and split point
-/
namespace Verif.Tree
open Verif.Spec (Bytes chunk lenClass)
open Verif.Internode (Arr upd)
open Verif.Perm (size get back backAtOffset insertFromBack swapFreeSlots setSize makeSorted24 params24)
variable {V : Type}

/-- Shape of one entry: inline value, value with suffix, or sublayer. -/
inductive EntOK (e : Ent V) : Prop
  | inline (hk : e.klx ≤ 8) (v : V) (hc : e.cell = .val v)
  | suffix (hk : e.klx = 64) (v : V) (hc : e.cell = .val v) (s : Bytes) (hs : e.suf = some s) (hne : s ≠ [])
      (hl : s.length ≤ 256)
  | layer (hk : e.klx = 128) (q : Nat) (hc : e.cell = .layer q)

/-- Half-open upper bounds; `none` is infinity. -/
def ltHi (t : Nat) (h : Option Nat) : Prop := ∀ x, h = some x → t < x
/-- Closed upper bounds; `none` is infinity. -/
def leHi (t : Nat) (h : Option Nat) : Prop := ∀ x, h = some x → t ≤ x

theorem ltHi.le {t : Nat} {h : Option Nat} (H : ltHi t h) : leHi t h := fun x e => Nat.le_of_lt (H x e)
@[simp] theorem ltHi_none (t : Nat) : ltHi t none := fun x e => by cases e
@[simp] theorem leHi_none (t : Nat) : leHi t none := fun x e => by cases e
@[simp] theorem ltHi_some (t h : Nat) : ltHi t (some h) ↔ t < h := ⟨fun H => H h rfl, fun H x e => by cases e; exact H⟩
@[simp] theorem leHi_some (t h : Nat) : leHi t (some h) ↔ t ≤ h := ⟨fun H => H h rfl, fun H x e => by cases e; exact H⟩

/-- Invariant of a leaf body whose leaf is responsible for `[lo, hi)`; entries equal to `hi` are possible (they are
unreachable left-overs of a split between equal chunks). -/
structure BodyOK (b : Leaf V) (lo : Nat) (hi : Option Nat) : Prop where
  perm : PermOK b.perm
  sorted : ∀ j j', j < j' → j' < b.n → (b.ent j).ikey ≤ (b.ent j').ikey
  dist : ∀ j j', j < j' → j' < b.n → (b.ent j).ikey = (b.ent j').ikey → cls (b.ent j).klx ≠ cls (b.ent j').klx
  lo : ∀ j, j < b.n → lo ≤ (b.ent j).ikey
  hi : ∀ j, j < b.n → leHi (b.ent j).ikey hi
  ok : ∀ j, j < b.n → EntOK (b.ent j)

theorem bodyOK_empty (lo : Nat) (hi : Option Nat) : BodyOK (emptyLeaf : Leaf V) lo hi := by
  have h : (emptyLeaf : Leaf V).n = 0 := size_initial
  refine ⟨permOK_initial, ?_, ?_, ?_, ?_, ?_⟩ <;> intros <;> omega

/-- The entry `e` satisfies the search for `k`. -/
def Matches (e : Ent V) (k : Key) : Prop :=
  e.ikey = k.ikey ∧ ((e.klx = searchKlx k ∧ (e.klx = 64 → e.suf = some k.suffix)) ∨ (e.klx = 128 ∧ k.hasSuffix = true))

theorem searchKlx_cases (k : Key) :
    (k.hasSuffix = true ∧ searchKlx k = 64 ∧ kcls k = 9) ∨
    (k.hasSuffix = false ∧ searchKlx k = k.currentLen ∧ k.currentLen ≤ 8 ∧ kcls k = k.currentLen) := by
  unfold searchKlx kcls
  cases h : k.hasSuffix with
  | true => left; simp [ksufKeylenx]
  | false =>
    right
    have : ¬ 8 < k.currentLen := by
      unfold Key.hasSuffix at h
      exact of_decide_eq_false h
    exact ⟨rfl, by simp, by omega, by simp⟩

theorem slotMatches_iff {b : Leaf V} {k : Key} {s : Nat} (h : EntOK (entAt b s)) :
    slotMatches b k s = true ↔ Matches (entAt b s) k := by
  unfold slotMatches Matches
  simp only [entAt]
  by_cases hi : b.ikey s = k.ikey
  · rw [if_neg (by simp [hi])]
    rcases searchKlx_cases k with ⟨h1, h2, _⟩ | ⟨h1, h2, h3, _⟩
    · cases h with
      | inline hk v hc =>
        simp only [entAt] at hk hc
        have e1 : b.klx s ≠ 64 := by omega
        have e2 : b.klx s ≠ 128 := by omega
        have e3 : ¬ 128 ≤ b.klx s := by omega
        simp [hc, hi, h2, h1, ksufKeylenx, layerKeylenx, e1, e2, e3]
      | suffix hk v hc s' hs => simp only [entAt] at hk hc hs; simp [hc, hi, h2, h1, hk, ksufKeylenx, layerKeylenx]
      | layer hk q hc => simp only [entAt] at hk hc; simp [hc, hi, h2, h1, hk, ksufKeylenx, layerKeylenx]
    · have e64 : ∀ x, x = k.currentLen → x ≠ 64 := by intro x; omega
      have e128 : k.currentLen ≠ 128 := by omega
      cases h with
      | inline hk v hc =>
        simp only [entAt] at hk hc
        simp only [hc, hi, h2, h1, ksufKeylenx, layerKeylenx, true_and]
        by_cases e : b.klx s = k.currentLen
        · simp [e, e64 k.currentLen rfl]
        · simp [e]
      | suffix hk v hc s' hs =>
        simp only [entAt] at hk hc hs
        have : (64 : Nat) ≠ k.currentLen := by omega
        simp [hc, hi, h2, h1, hk, this, ksufKeylenx, layerKeylenx]
      | layer hk q hc =>
        simp only [entAt] at hk hc
        have : (128 : Nat) ≠ k.currentLen := by omega
        simp [hc, hi, h2, h1, hk, this, ksufKeylenx, layerKeylenx]
  · simp [hi]

theorem searchGet_some {b : Leaf V} {k : Key} {n i s : Nat} (h : searchGet b k i n = some s) :
    ∃ j, i ≤ j ∧ j < i + n ∧ s = get 5 b.perm j ∧ slotMatches b k s = true := by
  induction n generalizing i with
  | zero => simp [searchGet] at h
  | succ n ih =>
    simp only [searchGet] at h
    split at h
    · rename_i hm
      cases h
      exact ⟨i, by omega, by omega, rfl, hm⟩
    · obtain ⟨j, h1, h2, h3⟩ := ih h
      exact ⟨j, by omega, by omega, h3⟩

theorem searchGet_none {b : Leaf V} {k : Key} {n i : Nat} (h : searchGet b k i n = none) (j : Nat) (h1 : i ≤ j)
    (h2 : j < i + n) : slotMatches b k (get 5 b.perm j) = false := by
  induction n generalizing i with
  | zero => omega
  | succ n ih =>
    simp only [searchGet] at h
    split at h
    · cases h
    · rename_i hm
      by_cases e : j = i
      · subst e; simpa using hm
      · exact ih h (by omega) (by omega)

/-- Search of `get` in a well-formed body. -/
theorem search_get_spec {b : Leaf V} {lo : Nat} {hi : Option Nat} (hb : BodyOK b lo hi) (k : Key) :
    (∃ j, j < b.n ∧ searchGet b k 0 (size 5 b.perm) = some (get 5 b.perm j) ∧ Matches (b.ent j) k) ∨
    (searchGet b k 0 (size 5 b.perm) = none ∧ ∀ j, j < b.n → ¬ Matches (b.ent j) k) := by
  cases h : searchGet b k 0 (size 5 b.perm) with
  | some s =>
    obtain ⟨j, _, h2, h3, h4⟩ := searchGet_some h
    refine Or.inl ⟨j, by unfold Leaf.n; omega, by rw [h3], ?_⟩
    subst h3
    exact (slotMatches_iff (hb.ok j (by unfold Leaf.n; omega))).1 h4
  | none =>
    refine Or.inr ⟨rfl, fun j hj hm => ?_⟩
    have := searchGet_none h j (by omega) (by unfold Leaf.n at hj; omega)
    rw [(slotMatches_iff (hb.ok j hj)).2 hm] at this
    cases this

/-- Matching entries have the class of the key, so there is at most one. -/
theorem matches_cls {e : Ent V} {k : Key} (h : Matches e k) : cls e.klx = kcls k := by
  obtain ⟨_, h⟩ := h
  unfold cls
  rcases searchKlx_cases k with ⟨h1, h2, h3⟩ | ⟨h1, h2, h3, h4⟩ <;> rcases h with ⟨h, _⟩ | ⟨h, h'⟩
  · rw [h3]; split <;> omega
  · rw [h3]; split <;> omega
  · rw [h4]; split <;> omega
  · rw [h1] at h'; cases h'

theorem matches_unique {b : Leaf V} {lo : Nat} {hi : Option Nat} (hb : BodyOK b lo hi) {k : Key} {i j : Nat}
    (hi' : i < b.n) (hj : j < b.n) (h1 : Matches (b.ent i) k) (h2 : Matches (b.ent j) k) : i = j := by
  rcases Nat.lt_trichotomy i j with h | h | h
  · exact absurd ((matches_cls h1).trans (matches_cls h2).symm) (hb.dist i j h hj (h1.1.trans h2.1.symm))
  · exact h
  · exact absurd ((matches_cls h2).trans (matches_cls h1).symm) (hb.dist j i h hi' (h2.1.trans h1.1.symm))

/-- What the search loop of `insert` found, entry by entry. -/
def SkipOK (e : Ent V) (k : Key) : Prop :=
  e.cell = .null ∨ (layerKeylenx ≤ e.klx ∧ k.hasSuffix = false) ∨
  (e.klx < layerKeylenx ∧ e.klx ≠ searchKlx k ∧ ¬ (e.klx = 64 ∧ k.hasSuffix = true))

theorem searchForInsert_eq {b : Leaf V} {k : Key} {i : Nat} (n : Nat) (h1 : b.ikey (get 5 b.perm i) = k.ikey)
    (h2 : b.cell (get 5 b.perm i) ≠ .null) :
    searchForInsert b k i (n + 1) =
      if layerKeylenx ≤ b.klx (get 5 b.perm i) then
        if k.hasSuffix then .layer (get 5 b.perm i) else searchForInsert b k (i + 1) n
      else if b.klx (get 5 b.perm i) = searchKlx k then
        if b.klx (get 5 b.perm i) = ksufKeylenx then
          if b.suf (get 5 b.perm i) = some k.suffix then .found (get 5 b.perm i) else .conflict (get 5 b.perm i)
        else .found (get 5 b.perm i)
      else if b.klx (get 5 b.perm i) = ksufKeylenx ∧ k.hasSuffix then .conflict (get 5 b.perm i)
      else searchForInsert b k (i + 1) n := by
  rw [searchForInsert]
  simp only [h1, if_true]

theorem searchForInsert_spec (b : Leaf V) (k : Key) : ∀ n i,
    match searchForInsert b k i n with
    | .found s => ∃ j, i ≤ j ∧ j < i + n ∧ s = get 5 b.perm j ∧ b.ikey s = k.ikey ∧ b.cell s ≠ .null ∧
        b.klx s < 128 ∧ b.klx s = searchKlx k ∧ (b.klx s = 64 → b.suf s = some k.suffix)
    | .layer s => ∃ j, i ≤ j ∧ j < i + n ∧ s = get 5 b.perm j ∧ b.ikey s = k.ikey ∧ b.cell s ≠ .null ∧
        128 ≤ b.klx s ∧ k.hasSuffix = true
    | .conflict s => ∃ j, i ≤ j ∧ j < i + n ∧ s = get 5 b.perm j ∧ b.ikey s = k.ikey ∧ b.cell s ≠ .null ∧
        b.klx s = 64 ∧ k.hasSuffix = true ∧ b.suf s ≠ some k.suffix
    | .notFound p => i ≤ p ∧ p ≤ i + n ∧ (∀ j, i ≤ j → j < p → b.ikey (get 5 b.perm j) ≤ k.ikey ∧
        (b.ikey (get 5 b.perm j) = k.ikey → SkipOK (b.ent j) k)) ∧ (p < i + n → k.ikey < b.ikey (get 5 b.perm p)) := by
  intro n
  induction n with
  | zero => intro i; simp only [searchForInsert]; exact ⟨by omega, by omega, fun j h1 h2 => by omega, fun h => by omega⟩
  | succ n ih =>
    intro i
    have lift : (b.ikey (get 5 b.perm i) ≤ k.ikey) → (b.ikey (get 5 b.perm i) = k.ikey → SkipOK (b.ent i) k) →
        match searchForInsert b k (i + 1) n with
        | .found s => ∃ j, i ≤ j ∧ j < i + (n + 1) ∧ s = get 5 b.perm j ∧ b.ikey s = k.ikey ∧ b.cell s ≠ .null ∧
            b.klx s < 128 ∧ b.klx s = searchKlx k ∧ (b.klx s = 64 → b.suf s = some k.suffix)
        | .layer s => ∃ j, i ≤ j ∧ j < i + (n + 1) ∧ s = get 5 b.perm j ∧ b.ikey s = k.ikey ∧ b.cell s ≠ .null ∧
            128 ≤ b.klx s ∧ k.hasSuffix = true
        | .conflict s => ∃ j, i ≤ j ∧ j < i + (n + 1) ∧ s = get 5 b.perm j ∧ b.ikey s = k.ikey ∧ b.cell s ≠ .null ∧
            b.klx s = 64 ∧ k.hasSuffix = true ∧ b.suf s ≠ some k.suffix
        | .notFound p => i ≤ p ∧ p ≤ i + (n + 1) ∧ (∀ j, i ≤ j → j < p → b.ikey (get 5 b.perm j) ≤ k.ikey ∧
            (b.ikey (get 5 b.perm j) = k.ikey → SkipOK (b.ent j) k)) ∧
            (p < i + (n + 1) → k.ikey < b.ikey (get 5 b.perm p)) := by
      intro h1 h2
      have ih := ih (i + 1)
      cases hr : searchForInsert b k (i + 1) n with
      | found s => rw [hr] at ih; obtain ⟨j, a1, a2, a3⟩ := ih; exact ⟨j, by omega, by omega, a3⟩
      | layer s => rw [hr] at ih; obtain ⟨j, a1, a2, a3⟩ := ih; exact ⟨j, by omega, by omega, a3⟩
      | conflict s => rw [hr] at ih; obtain ⟨j, a1, a2, a3⟩ := ih; exact ⟨j, by omega, by omega, a3⟩
      | notFound p =>
        rw [hr] at ih
        obtain ⟨a1, a2, a3, a4⟩ := ih
        refine ⟨by omega, by omega, fun j hj1 hj2 => ?_, fun h => a4 (by omega)⟩
        by_cases e : j = i
        · subst e; exact ⟨h1, h2⟩
        · exact a3 j (by omega) hj2
    by_cases c1 : b.ikey (get 5 b.perm i) = k.ikey
    · have nn : b.cell (get 5 b.perm i) = .null ∨ b.cell (get 5 b.perm i) ≠ .null := Classical.em _
      rcases nn with hnull | hnn
      · have e : searchForInsert b k i (n + 1) = searchForInsert b k (i + 1) n := by
          rw [searchForInsert]; simp only [c1, if_true, hnull]
        rw [e]
        exact lift (by omega) (fun _ => Or.inl hnull)
      · rw [searchForInsert_eq n c1 hnn]
        by_cases c2 : layerKeylenx ≤ b.klx (get 5 b.perm i)
        · simp only [c2, if_true]
          by_cases c3 : k.hasSuffix = true
          · rw [if_pos c3]
            refine ⟨i, Nat.le_refl _, by omega, rfl, c1, hnn, c2, c3⟩
          · rw [if_neg c3]
            have c3 : k.hasSuffix = false := by simpa using c3
            exact lift (by omega) (fun _ => Or.inr (Or.inl ⟨c2, c3⟩))
        · simp only [c2, if_false]
          have c2' : b.klx (get 5 b.perm i) < 128 := by simp only [layerKeylenx] at c2; omega
          by_cases c3 : b.klx (get 5 b.perm i) = searchKlx k
          · rw [if_pos c3]
            by_cases c4 : b.klx (get 5 b.perm i) = ksufKeylenx
            · rw [if_pos c4]
              by_cases c5 : b.suf (get 5 b.perm i) = some k.suffix
              · rw [if_pos c5]
                exact ⟨i, Nat.le_refl _, by omega, rfl, c1, hnn, c2', c3, fun _ => c5⟩
              · rw [if_neg c5]
                refine ⟨i, Nat.le_refl _, by omega, rfl, c1, hnn, c4, ?_, c5⟩
                rcases searchKlx_cases k with ⟨h1, _⟩ | ⟨h1, h2, h3, _⟩
                · exact h1
                · simp only [ksufKeylenx] at c4; omega
            · rw [if_neg c4]
              exact ⟨i, Nat.le_refl _, by omega, rfl, c1, hnn, c2', c3, fun h => absurd h c4⟩
          · rw [if_neg c3]
            by_cases c4 : b.klx (get 5 b.perm i) = ksufKeylenx ∧ k.hasSuffix = true
            · rw [if_pos c4]
              refine ⟨i, Nat.le_refl _, by omega, rfl, c1, hnn, c4.1, c4.2, ?_⟩
              intro h
              rcases searchKlx_cases k with ⟨h1, h2, _⟩ | ⟨h1, h2, h3, _⟩
              · exact c3 (by rw [c4.1, h2]; rfl)
              · rw [h1] at c4; exact absurd c4.2 (by simp)
            · rw [if_neg c4]
              exact lift (by omega) (fun _ => Or.inr (Or.inr ⟨Nat.lt_of_not_le c2, c3, c4⟩))
    · rw [searchForInsert]
      simp only [c1, if_false]
      by_cases c2 : k.ikey < b.ikey (get 5 b.perm i)
      · rw [if_pos c2]
        exact ⟨Nat.le_refl _, by omega, fun j h1 h2 => by omega, fun _ => c2⟩
      · rw [if_neg c2]
        exact lift (by omega) (fun h => absurd h c1)

/-- The four outcomes of the search of `insert`, on a well-formed body. -/
inductive InsSpec (b : Leaf V) (k : Key) : Found → Prop
  | found (j : Nat) (hj : j < b.n) (hm : Matches (b.ent j) k) (v : V) (hc : (b.ent j).cell = .val v)
      (hk : (b.ent j).klx = searchKlx k) : InsSpec b k (.found (get 5 b.perm j))
  | layer (j : Nat) (hj : j < b.n) (hi : (b.ent j).ikey = k.ikey) (hs : k.hasSuffix = true)
      (hk : (b.ent j).klx = 128) (q : Nat) (hc : (b.ent j).cell = .layer q) : InsSpec b k (.layer (get 5 b.perm j))
  | conflict (j : Nat) (hj : j < b.n) (hi : (b.ent j).ikey = k.ikey) (hs : k.hasSuffix = true)
      (hk : (b.ent j).klx = 64) (v : V) (hc : (b.ent j).cell = .val v) (s : Bytes) (hsf : (b.ent j).suf = some s)
      (hne : s ≠ k.suffix) (hs0 : s ≠ []) (hsl : s.length ≤ 256) : InsSpec b k (.conflict (get 5 b.perm j))
  | notFound (p : Nat) (hp : p ≤ b.n) (h1 : ∀ j, j < p → (b.ent j).ikey ≤ k.ikey)
      (h2 : ∀ j, p ≤ j → j < b.n → k.ikey < (b.ent j).ikey)
      (h3 : ∀ j, j < b.n → (b.ent j).ikey = k.ikey → cls (b.ent j).klx ≠ kcls k) : InsSpec b k (.notFound p)

theorem search_insert_spec {b : Leaf V} {lo : Nat} {hi : Option Nat} (hb : BodyOK b lo hi) (k : Key) :
    InsSpec b k (searchForInsert b k 0 (size 5 b.perm)) := by
  have H := searchForInsert_spec b k (size 5 b.perm) 0
  cases hr : searchForInsert b k 0 (size 5 b.perm) with
  | found s =>
    rw [hr] at H
    obtain ⟨j, _, h2, h3, h4, h5, h6, h7, h8⟩ := H
    subst h3
    have hj : j < b.n := by unfold Leaf.n; omega
    have hok := hb.ok j hj
    have hm : Matches (b.ent j) k := ⟨h4, Or.inl ⟨h7, h8⟩⟩
    cases hok with
    | inline hk v hc => exact .found j hj hm v hc h7
    | suffix hk v hc _ _ => exact .found j hj hm v hc h7
    | layer hk q hc => simp only [Leaf.ent, entAt] at hk; omega
  | layer s =>
    rw [hr] at H
    obtain ⟨j, _, h2, h3, h4, h5, h6, h7⟩ := H
    subst h3
    have hj : j < b.n := by unfold Leaf.n; omega
    cases hb.ok j hj with
    | inline hk v hc => simp only [Leaf.ent, entAt] at hk; omega
    | suffix hk v hc _ _ => simp only [Leaf.ent, entAt] at hk; omega
    | layer hk q hc => exact .layer j hj h4 h7 hk q hc
  | conflict s =>
    rw [hr] at H
    obtain ⟨j, _, h2, h3, h4, h5, h6, h7, h8⟩ := H
    subst h3
    have hj : j < b.n := by unfold Leaf.n; omega
    cases hb.ok j hj with
    | inline hk v hc => simp only [Leaf.ent, entAt] at hk; omega
    | suffix hk v hc s hs hne hl =>
      refine .conflict j hj h4 h7 hk v hc s hs ?_ hne hl
      intro e; subst e; exact h8 hs
    | layer hk q hc => simp only [Leaf.ent, entAt] at hk; omega
  | notFound p =>
    rw [hr] at H
    obtain ⟨_, h2, h3, h4⟩ := H
    have hp : p ≤ b.n := by unfold Leaf.n; omega
    have gt : ∀ j, p ≤ j → j < b.n → k.ikey < (b.ent j).ikey := by
      intro j h5 h6
      have hpj : k.ikey < (b.ent p).ikey := h4 (by unfold Leaf.n at h6; omega)
      by_cases e : p = j
      · subst e; exact hpj
      · exact Nat.lt_of_lt_of_le hpj (hb.sorted p j (by omega) h6)
    refine .notFound p hp (fun j hj => (h3 j (by omega) hj).1) gt ?_
    intro j hj he hcls
    by_cases c : p ≤ j
    · have := gt j c hj; omega
    · have hs := (h3 j (by omega) (by omega)).2 he
      have hok := hb.ok j hj
      rcases searchKlx_cases k with ⟨k1, k2, k3⟩ | ⟨k1, k2, k3, k4⟩
      · cases hok with
        | inline hk v hc =>
          rw [k3] at hcls; unfold cls at hcls; rw [if_pos hk] at hcls; omega
        | suffix hk v hc _ _ =>
          rcases hs with h | h | h
          · rw [hc] at h; cases h
          · rw [k1] at h; exact absurd h.2 (by simp)
          · exact h.2.2 ⟨hk, k1⟩
        | layer hk q hc =>
          rcases hs with h | h | h
          · rw [hc] at h; cases h
          · rw [k1] at h; exact absurd h.2 (by simp)
          · have := h.1; simp only [layerKeylenx] at this; omega
      · cases hok with
        | inline hk v hc =>
          rw [k4] at hcls; unfold cls at hcls; rw [if_pos hk] at hcls
          rcases hs with h | h | h
          · rw [hc] at h; cases h
          · have := h.1; simp only [layerKeylenx] at this; omega
          · exact h.2.1 (by omega)
        | suffix hk v hc _ _ =>
          rw [k4] at hcls; unfold cls at hcls; rw [if_neg (by omega)] at hcls; omega
        | layer hk q hc =>
          rw [k4] at hcls; unfold cls at hcls; rw [if_neg (by omega)] at hcls; omega

/-! ## Slot assignment -/

/-- The entry stored for a key. -/
def newEnt (k : Key) (v : V) : Ent V :=
  ⟨k.ikey, searchKlx k, .val v, if k.hasSuffix then some k.suffix else none⟩

theorem assignSlot_entAt (b : Leaf V) (s : Nat) (k : Key) (v : V) : entAt (assignSlot b s k v) s = newEnt k v := by
  rcases searchKlx_cases k with ⟨h1, h2, h3⟩ | ⟨h1, h2, h3, h4⟩
  · simp [assignSlot, newEnt, entAt, Leaf.suf, h1, h2, upd, ksufKeylenx]
  · have : k.currentLen ≠ 64 := by omega
    simp [assignSlot, newEnt, entAt, Leaf.suf, h1, h2, upd, ksufKeylenx, this]

theorem assignSlot_other (b : Leaf V) (s : Nat) (k : Key) (v : V) (s' : Nat) (h : s' ≠ s) :
    entAt (assignSlot b s k v) s' = entAt b s' := by
  unfold assignSlot
  split <;> simp [entAt, Leaf.suf, upd, h]

theorem assignFromKey_entAt (b : Leaf V) (s : Nat) (k : Key) (v : V) : entAt (assignFromKey b s k v) s = newEnt k v := by
  rcases searchKlx_cases k with ⟨h1, h2, h3⟩ | ⟨h1, h2, h3, h4⟩
  · simp [assignFromKey, newEnt, entAt, Leaf.suf, h1, h2, upd, ksufKeylenx]
  · have e : min k.currentLen 8 = k.currentLen := by omega
    have : k.currentLen ≠ 64 := by omega
    simp [assignFromKey, newEnt, entAt, Leaf.suf, h1, h2, upd, ksufKeylenx, this, e]

theorem assignFromKey_other (b : Leaf V) (s : Nat) (k : Key) (v : V) (s' : Nat) (h : s' ≠ s) :
    entAt (assignFromKey b s k v) s' = entAt b s' := by
  unfold assignFromKey
  split <;> simp [entAt, Leaf.suf, upd, h]

theorem newEnt_cls (k : Key) (v : V) : cls (newEnt k v).klx = kcls k := by
  unfold cls newEnt
  rcases searchKlx_cases k with ⟨h1, h2, h3⟩ | ⟨h1, h2, h3, h4⟩ <;> simp only [h2]
  · rw [h3]; rfl
  · rw [if_pos h3, h4]

theorem newEnt_ok (k : Key) (v : V) (hl : k.suffix.length ≤ 256) (hn : k.hasSuffix = true → k.suffix ≠ []) :
    EntOK (newEnt k v) := by
  rcases searchKlx_cases k with ⟨h1, h2, h3⟩ | ⟨h1, h2, h3, h4⟩
  · exact .suffix h2 v rfl k.suffix (by simp [newEnt, h1]) (hn h1) hl
  · exact .inline (by simp only [newEnt, h2]; exact h3) v rfl

/-! ## Body invariant after insertion and after a store to one slot -/

theorem bodyOK_insert {b nb : Leaf V} {lo : Nat} {hi : Option Nat} (hb : BodyOK b lo hi) (hs : b.n < 24) {pos : Nat}
    (hp : pos ≤ b.n) (hperm : nb.perm = (insertFromBack 5 24 b.perm pos).1)
    (hsame : ∀ s, s ≠ back 5 24 b.perm → entAt nb s = entAt b s) (e : Ent V)
    (he : entAt nb (back 5 24 b.perm) = e) (hok : EntOK e) (hlo : lo ≤ e.ikey) (hhi : leHi e.ikey hi)
    (h1 : ∀ j, j < pos → (b.ent j).ikey ≤ e.ikey) (h2 : ∀ j, pos ≤ j → j < b.n → e.ikey < (b.ent j).ikey)
    (h3 : ∀ j, j < b.n → (b.ent j).ikey = e.ikey → cls (b.ent j).klx ≠ cls e.klx) : BodyOK nb lo hi := by
  have hn : nb.n = b.n + 1 := insert_n nb hs hp hperm
  have hent : ∀ j, j ≤ b.n → nb.ent j = if j < pos then b.ent j else if j = pos then e else b.ent (j - 1) := by
    intro j hj; rw [insert_ent hb.perm hs hp hperm hsame j hj, he]
  refine ⟨?_, ?_, ?_, ?_, ?_, ?_⟩
  · rw [hperm]; exact permOK_insert hb.perm hs hp
  · intro j j' hj hj'
    rw [hn] at hj'
    rw [hent j (by omega), hent j' (by omega)]
    by_cases a : j < pos
    · rw [if_pos a]
      by_cases c : j' < pos
      · rw [if_pos c]; exact hb.sorted j j' hj (by omega)
      · rw [if_neg c]
        by_cases d : j' = pos
        · rw [if_pos d]; exact h1 j a
        · rw [if_neg d]
          exact Nat.le_trans (h1 j a) (Nat.le_of_lt (h2 (j' - 1) (by omega) (by omega)))
    · rw [if_neg a, if_neg (by omega : ¬ j' < pos), if_neg (by omega : ¬ j' = pos)]
      by_cases d : j = pos
      · rw [if_pos d]; exact Nat.le_of_lt (h2 (j' - 1) (by omega) (by omega))
      · rw [if_neg d]; exact hb.sorted (j - 1) (j' - 1) (by omega) (by omega)
  · intro j j' hj hj'
    rw [hn] at hj'
    rw [hent j (by omega), hent j' (by omega)]
    by_cases a : j < pos
    · rw [if_pos a]
      by_cases c : j' < pos
      · rw [if_pos c]; exact hb.dist j j' hj (by omega)
      · rw [if_neg c]
        by_cases d : j' = pos
        · rw [if_pos d]; exact h3 j (by omega)
        · rw [if_neg d]; exact hb.dist j (j' - 1) (by omega) (by omega)
    · rw [if_neg a, if_neg (by omega : ¬ j' < pos), if_neg (by omega : ¬ j' = pos)]
      by_cases d : j = pos
      · rw [if_pos d]; intro heq; have := h2 (j' - 1) (by omega) (by omega); omega
      · rw [if_neg d]; exact hb.dist (j - 1) (j' - 1) (by omega) (by omega)
  · intro j hj
    rw [hn] at hj; rw [hent j (by omega)]
    split
    · exact hb.lo j (by omega)
    · split
      · exact hlo
      · exact hb.lo (j - 1) (by omega)
  · intro j hj
    rw [hn] at hj; rw [hent j (by omega)]
    split
    · exact hb.hi j (by omega)
    · split
      · exact hhi
      · exact hb.hi (j - 1) (by omega)
  · intro j hj
    rw [hn] at hj; rw [hent j (by omega)]
    split
    · exact hb.ok j (by omega)
    · split
      · exact hok
      · exact hb.ok (j - 1) (by omega)

theorem bodyOK_set {b nb : Leaf V} {lo : Nat} {hi : Option Nat} (hb : BodyOK b lo hi) {i : Nat} (hi' : i < b.n)
    (hperm : nb.perm = b.perm) (hsame : ∀ s, s ≠ get 5 b.perm i → entAt nb s = entAt b s) (e : Ent V)
    (he : entAt nb (get 5 b.perm i) = e) (hok : EntOK e) (hik : e.ikey = (b.ent i).ikey)
    (hc : cls e.klx = cls (b.ent i).klx) : BodyOK nb lo hi := by
  have hn : nb.n = b.n := by unfold Leaf.n; rw [hperm]
  have hent : ∀ j, j < b.n → nb.ent j = if j = i then e else b.ent j := by
    intro j hj; rw [set_ent hb.perm hi' hperm hsame j hj, he]
  have hik' : ∀ j, j < b.n → (nb.ent j).ikey = (b.ent j).ikey := by
    intro j hj; rw [hent j hj]; split
    · rename_i h; rw [h, hik]
    · rfl
  have hcl' : ∀ j, j < b.n → cls (nb.ent j).klx = cls (b.ent j).klx := by
    intro j hj; rw [hent j hj]; split
    · rename_i h; rw [h, hc]
    · rfl
  refine ⟨hperm ▸ hb.perm, ?_, ?_, ?_, ?_, ?_⟩
  · intro j j' h1 h2; rw [hn] at h2; rw [hik' j (by omega), hik' j' h2]; exact hb.sorted j j' h1 h2
  · intro j j' h1 h2; rw [hn] at h2
    rw [hik' j (by omega), hik' j' h2, hcl' j (by omega), hcl' j' h2]; exact hb.dist j j' h1 h2
  · intro j h; rw [hn] at h; rw [hik' j h]; exact hb.lo j h
  · intro j h; rw [hn] at h; rw [hik' j h]; exact hb.hi j h
  · intro j h; rw [hn] at h; rw [hent j h]; split
    · exact hok
    · exact hb.ok j h

/-! ## Split point -/

theorem pigeon (m : Nat) (f : Nat → Nat) (h1 : ∀ j, j < m → f j < 10) (h2 : ∀ i j, i < j → j < m → f i ≠ f j) :
    m ≤ 10 := by
  have hc : (Finset.range m).card ≤ (Finset.range 10).card := by
    apply Finset.card_le_card_of_injOn f
    · intro j hj; simp only [Finset.coe_range, Set.mem_Iio, Finset.mem_coe, Finset.mem_range] at hj ⊢; exact h1 j hj
    · intro i hi j hj e
      simp only [Finset.coe_range, Set.mem_Iio, Finset.mem_coe, Finset.mem_range] at hi hj
      rcases Nat.lt_trichotomy i j with h | h | h
      · exact absurd e (h2 i j h hj)
      · exact h
      · exact absurd e.symm (h2 j i h hi)
  simpa using hc

theorem cls_lt (x : Nat) : cls x < 10 := by unfold cls; split <;> omega

/-- At most ten entries of a leaf share a chunk. -/
theorem group_le {b : Leaf V} {lo : Nat} {hi : Option Nat} (hb : BodyOK b lo hi) (a m g : Nat) (ham : a + m ≤ b.n)
    (h : ∀ j, a ≤ j → j < a + m → (b.ent j).ikey = g) : m ≤ 10 := by
  refine pigeon m (fun j => cls (b.ent (a + j)).klx) (fun j _ => cls_lt _) (fun i j hij hj => ?_)
  exact hb.dist _ _ (by omega) (by omega) ((h _ (by omega) (by omega)).trans (h _ (by omega) (by omega)).symm)

theorem loop_right (b : Leaf V) (ik sz : Nat) : ∀ f pos, 0 < pos → pos ≤ sz → sz ≤ pos + f →
    (b.ent (pos - 1)).ikey = ik →
    let r := splitPosLoop b sz ik f pos
    pos ≤ r ∧ r ≤ sz ∧ (∀ j, pos ≤ j → j < r → (b.ent j).ikey = ik) ∧ (r < sz → (b.ent r).ikey ≠ ik ∧ (b.ent (r-1)).ikey = ik) := by
  intro f
  induction f with
  | zero =>
    intro pos h0 h1 h2 h3
    simp only [splitPosLoop]
    exact ⟨by omega, by omega, fun j a c => by omega, fun h => by omega⟩
  | succ f ih =>
    intro pos h0 h1 h2 h3
    simp only [splitPosLoop]
    by_cases c1 : 0 < pos ∧ pos < sz
    · rw [if_pos c1]
      have hl : b.ikey (get 5 b.perm (pos - 1)) = ik := h3
      by_cases c2 : b.ikey (get 5 b.perm (pos - 1)) = b.ikey (get 5 b.perm pos)
      · rw [if_pos c2, if_pos hl.symm]
        have hp : (b.ent pos).ikey = ik := by rw [← hl]; exact c2.symm
        obtain ⟨a1, a2, a3, a4⟩ := ih (pos + 1) (by omega) (by omega) (by omega) (by simpa using hp)
        refine ⟨by omega, a2, fun j j1 j2 => ?_, a4⟩
        by_cases e : j = pos
        · rw [e]; exact hp
        · exact a3 j (by omega) j2
      · rw [if_neg c2]
        refine ⟨by omega, h1, fun j a c => by omega, fun h => ⟨?_, h3⟩⟩
        intro e; exact c2 (hl.trans e.symm)
    · rw [if_neg c1]
      exact ⟨by omega, h1, fun j a c => by omega, fun h => by omega⟩

theorem loop_left (b : Leaf V) (ik g sz : Nat) (hlt : ik < g) : ∀ f pos, pos ≤ f → pos < sz →
    (b.ent pos).ikey = g →
    let r := splitPosLoop b sz ik f pos
    r ≤ pos ∧ (∀ j, r ≤ j → j ≤ pos → (b.ent j).ikey = g) ∧ (0 < r → (b.ent (r - 1)).ikey ≠ g) := by
  intro f
  induction f with
  | zero =>
    intro pos h0 h1 h3
    simp only [splitPosLoop]
    refine ⟨by omega, fun j a c => ?_, fun h => by omega⟩
    have : j = pos := by omega
    rw [this, h3]
  | succ f ih =>
    intro pos h0 h1 h3
    simp only [splitPosLoop]
    by_cases c1 : 0 < pos ∧ pos < sz
    · rw [if_pos c1]
      have hr : b.ikey (get 5 b.perm pos) = g := h3
      by_cases c2 : b.ikey (get 5 b.perm (pos - 1)) = b.ikey (get 5 b.perm pos)
      · rw [if_pos c2, if_neg (by omega), if_pos (by omega)]
        have hp : (b.ent (pos - 1)).ikey = g := by rw [← hr]; exact c2
        obtain ⟨a1, a2, a3⟩ := ih (pos - 1) (by omega) (by omega) hp
        refine ⟨by omega, fun j j1 j2 => ?_, a3⟩
        by_cases e : j = pos
        · rw [e]; exact h3
        · exact a2 j j1 (by omega)
      · rw [if_neg c2]
        refine ⟨by omega, fun j a c => ?_, fun h e => c2 (Eq.trans e hr.symm)⟩
        have : j = pos := by omega
        rw [this, h3]
    · rw [if_neg c1]
      refine ⟨by omega, fun j a c => ?_, fun h => by omega⟩
      have : j = pos := by omega
      rw [this, h3]

/-- `calculate_split_point` on a full leaf always succeeds; either the split key is strictly above everything left
behind, or the split separates equal chunks below the chunk being inserted.  In both cases the left part does not
shrink to an empty range. -/
theorem calcSplitPoint_spec {b : Leaf V} {lo : Nat} {hi : Option Nat} (hb : BodyOK b lo hi) (hfull : b.n = 24) (ik : Nat)
    (hlo : lo ≤ ik) (hhi : ltHi ik hi) :
    ∃ pos, calcSplitPoint b ik = some pos ∧ 0 < pos ∧ pos < 24 ∧ lo < (b.ent pos).ikey ∧
      ((b.ent (pos - 1)).ikey < (b.ent pos).ikey ∨
       ((b.ent (pos - 1)).ikey = (b.ent pos).ikey ∧ (b.ent pos).ikey < ik)) := by
  have hsz : size 5 b.perm = 24 := hfull
  have key : ∃ pos, splitPosLoop b 24 ik 24 12 = pos ∧ 0 < pos ∧ pos < 24 ∧ lo < (b.ent pos).ikey ∧
      ((b.ent (pos - 1)).ikey < (b.ent pos).ikey ∨
       ((b.ent (pos - 1)).ikey = (b.ent pos).ikey ∧ (b.ent pos).ikey < ik)) := by
    have big : ∀ pos, 10 ≤ pos → pos < 24 → lo < (b.ent pos).ikey := by
      intro pos h1 h2
      have hle := hb.lo pos (by omega)
      rcases Nat.lt_or_ge lo (b.ent pos).ikey with h | h
      · exact h
      · have e : (b.ent pos).ikey = lo := by omega
        have := group_le hb 0 (pos + 1) lo (by omega) (fun j _ hj => by
          have h3 := hb.lo j (by omega)
          by_cases ej : j = pos
          · rw [ej, e]
          · have h4 := hb.sorted j pos (by omega) (by omega); omega)
        omega
    by_cases c : (b.ent 11).ikey = (b.ent 12).ikey
    · rcases Nat.lt_trichotomy ik (b.ent 11).ikey with h | h | h
      · obtain ⟨a1, a2, a3⟩ := loop_left b ik (b.ent 12).ikey 24 (by omega) 24 12 (by omega) (by omega) rfl
        generalize hr : splitPosLoop b 24 ik 24 12 = r at *
        have hg := group_le hb r (12 - r + 1) (b.ent 12).ikey (by omega) (fun j h1 h2 => a2 j h1 (by omega))
        have er : (b.ent r).ikey = (b.ent 12).ikey := a2 r (by omega) (by omega)
        refine ⟨r, rfl, by omega, by omega, by omega, Or.inl ?_⟩
        have := a3 (by omega)
        have := hb.sorted (r - 1) r (by omega) (by omega)
        omega
      · have hstep : splitPosLoop b 24 ik 24 12 = splitPosLoop b 24 ik 24 12 := rfl
        obtain ⟨a1, a2, a3, a4⟩ := loop_right b ik 24 24 12 (by omega) (by omega) (by omega) h.symm
        generalize hr : splitPosLoop b 24 ik 24 12 = r at *
        have hg := group_le hb 12 (r - 12) ik (by omega) (fun j h1 h2 => a3 j h1 (by omega))
        have hlt : r < 24 := by omega
        obtain ⟨a5, a6⟩ := a4 hlt
        refine ⟨r, rfl, by omega, by omega, big r (by omega) hlt, Or.inl ?_⟩
        have := hb.sorted (r - 1) r (by omega) (by omega)
        omega
      · refine ⟨12, ?_, by omega, by omega, big 12 (by omega) (by omega), Or.inr ⟨c, by omega⟩⟩
        have c' : b.ikey (get 5 b.perm 11) = b.ikey (get 5 b.perm 12) := c
        have h' : b.ikey (get 5 b.perm 11) < ik := h
        show splitPosLoop b 24 ik (23 + 1) 12 = 12
        rw [splitPosLoop]
        simp only []
        rw [if_pos (by omega), if_pos c', if_neg (show ¬ ik = b.ikey (get 5 b.perm 11) by omega),
          if_neg (show ¬ ik < b.ikey (get 5 b.perm 11) by omega)]
    · refine ⟨12, ?_, by omega, by omega, big 12 (by omega) (by omega), Or.inl ?_⟩
      · have c' : ¬ b.ikey (get 5 b.perm 11) = b.ikey (get 5 b.perm 12) := c
        show splitPosLoop b 24 ik (23 + 1) 12 = 12
        rw [splitPosLoop]
        simp only []
        rw [if_pos (by omega), if_neg c']
      · have := hb.sorted 11 12 (by omega) (by omega)
        simp only [show 12 - 1 = 11 from rfl]; omega
  obtain ⟨pos, h1, h2, h3, h4, h5⟩ := key
  refine ⟨pos, ?_, h2, h3, h4, h5⟩
  unfold calcSplitPoint
  simp only [hsz]
  rw [if_neg (by omega), if_neg (by omega), if_neg]
  · rw [h1]
  · rw [h1]; omega

/-- Both halves of a split are well formed. -/
theorem bodyOK_split {b : Leaf V} {lo : Nat} {hi : Option Nat} (hb : BodyOK b lo hi) {pos : Nat} (h0 : 0 < pos)
    (hp : pos < b.n) :
    BodyOK (splitLeaf b pos).1 lo (some (b.ent pos).ikey) ∧ BodyOK (splitLeaf b pos).2.1 (b.ent pos).ikey hi := by
  obtain ⟨n1, n2, p1, p2, e1, e2, _⟩ := splitLeaf_spec hb.perm h0 hp
  constructor
  · refine ⟨p1, ?_, ?_, ?_, ?_, ?_⟩
    · intro j j' h1 h2; rw [n1] at h2; rw [e1 j (by omega), e1 j' h2]; exact hb.sorted j j' h1 (by omega)
    · intro j j' h1 h2; rw [n1] at h2; rw [e1 j (by omega), e1 j' h2]; exact hb.dist j j' h1 (by omega)
    · intro j h; rw [n1] at h; rw [e1 j h]; exact hb.lo j (by omega)
    · intro j h; rw [n1] at h; rw [e1 j h]; simp only [leHi_some]; exact hb.sorted j pos h hp
    · intro j h; rw [n1] at h; rw [e1 j h]; exact hb.ok j (by omega)
  · refine ⟨p2, ?_, ?_, ?_, ?_, ?_⟩
    · intro j j' h1 h2; rw [n2] at h2; rw [e2 j (by omega), e2 j' h2]; exact hb.sorted _ _ (by omega) (by omega)
    · intro j j' h1 h2; rw [n2] at h2; rw [e2 j (by omega), e2 j' h2]; exact hb.dist _ _ (by omega) (by omega)
    · intro j h; rw [n2] at h; rw [e2 j h]
      by_cases e : j = 0
      · subst e; exact Nat.le_refl _
      · exact hb.sorted pos (pos + j) (by omega) (by omega)
    · intro j h; rw [n2] at h; rw [e2 j h]; exact hb.hi _ (by omega)
    · intro j h; rw [n2] at h; rw [e2 j h]; exact hb.ok _ (by omega)

end Verif.Tree
