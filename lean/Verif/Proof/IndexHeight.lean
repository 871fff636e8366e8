import Verif.Proof.IndexRounds
import Mathlib.Data.Finset.Card
import Mathlib.Data.Finset.Range
import Mathlib.Data.Finset.Prod
set_option linter.unusedSimpArgs false
set_option linter.unusedVariables false
/-! Internodes are at least half full, so the index is at most logarithmically high. -/
namespace Verif.Index
open Verif.Internode
variable {V : Type}

/-- Internodes have at least seven keys, except the root, which has at least one. -/
def Half (s : Heap V) : Prop := ∀ n, Al s n → 0 < (s.node n).ht →
  7 ≤ (s.node n).base.nkeys ∨ n = s.top ∧ 1 ≤ (s.node n).base.nkeys ∧ (s.node n).splitting = false

/-- Steps that change nothing that matters here. -/
theorem Half.congr {s s' : Heap V} (h : Half s) (ht : s'.top = s.top)
    (e : ∀ n, Al s' n → 0 < (s'.node n).ht → Al s n ∧ (s'.node n).ht = (s.node n).ht ∧
      ((s'.node n).base.nkeys = (s.node n).base.nkeys ∨ 1 ≤ (s.node n).base.nkeys ∧ (s.node n).base.nkeys ≤ (s'.node n).base.nkeys) ∧
      ((s.node n).splitting = false → (s'.node n).splitting = false)) :
    Half s' := by
  intro n hn h0
  obtain ⟨e1, e2, e3, e4⟩ := e n hn h0
  rw [e2] at h0
  rcases h n e1 h0 with g | ⟨g1, g2, g3⟩
  · left; omega
  · right; exact ⟨by rw [ht]; exact g1, by omega, e4 g3⟩

theorem step_half {strict main : Bool} {s : Heap V} {c : Pc V} {O B : Nat → Prop} (P : Pre main s c O B) (h : Half s)
    (hf : ∀ o e, (step strict main s c).2 ≠ .fail o e) : Half (step strict main s c).1 := by
  have H := P.H
  have ok := P.ok
  have U : ∀ (n : Nat) (f : Node V → Node V), (f (s.node n)).ht = (s.node n).ht → (f (s.node n)).base.nkeys = (s.node n).base.nkeys →
      ((s.node n).splitting = false → (f (s.node n)).splitting = false) → Half (s.mod n f) := by
    intro n f h1 h2 h3
    refine h.congr rfl fun m hm _ => ⟨hm, ?_⟩
    rw [mod_node]
    split
    · rename_i e; subst e; exact ⟨h1, .inl h2, h3⟩
    · exact ⟨rfl, .inl rfl, id⟩
  cases c with
  | sect o r l =>
    obtain ⟨h1, h2, h3, t, v, rfl⟩ := ok
    have S : ∀ f : Node V → Node V, (f (s.node l)).ht = 0 → Half (s.mod l f) := by
      intro f hz
      refine h.congr rfl fun m hm h0 => ⟨hm, ?_⟩
      rw [mod_node] at h0 ⊢
      split
      · rename_i e; rw [if_pos e, hz] at h0; omega
      · exact ⟨rfl, .inl rfl, id⟩
    simp only [step]
    split
    · exact h
    · split
      · exact S _ (by simp [Node.lock, h3])
      · split
        · exact S _ (by simp [Node.lock, h3])
        · split
          · exact S _ (by simp [Node.lock, h3])
          · refine h.congr rfl fun m hm h0 => ?_
            simp only [splitLeaf, upd] at h0 ⊢
            by_cases e1 : m = s.fresh
            · rw [if_pos e1] at h0; simp at h0
            · rw [if_neg e1] at h0 ⊢
              by_cases e2 : m = l
              · rw [if_pos e2] at h0; simp only [h3] at h0; omega
              · rw [if_neg e2]
                exact ⟨⟨hm.1, by have := hm.2; simp only [splitLeaf] at this; omega⟩, rfl, .inl rfl, id⟩
  | par x =>
    have h1 : CtxOk main s x := ok
    have G : (s.node x.l).parent = 0 → ∀ m, Half (newRoot m s x) := by
      intro h0 m n hn hp
      have htl : x.l = s.top := by
        rcases H.orph x.l h1.al h0 with h | h | h
        · exact h
        · exact absurd (by simp [holds]) (P.hO _ h).2.2
        · exact absurd h h1.ne
      have hlf : x.l ≠ s.fresh := by have := h1.al.2; omega
      have hyf : x.y ≠ s.fresh := by have := h1.ay.2; omega
      have bl := H.same x.l h1.al (by rintro (hb | hb); exact (P.hB _ hb).2.2 (by simp [holds]); exact hb)
      have bY := H.same x.y h1.ay (by rintro (hb | hb); exact (P.hB _ hb).2.2 (by simp [holds]); exact hb)
      by_cases e : n = s.fresh
      · subst e
        right
        refine ⟨rfl, ?_, ?_⟩
        · simp only [newRoot, mod_node, if_neg hlf.symm, if_neg hyf.symm, upd_same]; simp [rootArr]
        · simp only [newRoot, mod_node, if_neg hlf.symm, if_neg hyf.symm, upd_same]
      · have hn' : Al s n := ⟨hn.1, by have := hn.2; simp only [newRoot, mod_fresh] at this; omega⟩
        have hb : ((newRoot m s x).node n).ht = (s.node n).ht ∧ ((newRoot m s x).node n).base = (s.node n).base := by
          simp only [newRoot, mod_node]
          by_cases e1 : n = x.l
          · rw [if_pos e1, if_neg h1.ne, e1]; simp [upd, hlf, bl]
          · rw [if_neg e1]
            by_cases e2 : n = x.y
            · rw [if_pos e2, e2]; simp [upd, hyf, bY]
            · rw [if_neg e2]; simp [upd, e]
        rw [hb.1] at hp
        rw [hb.2]
        rcases h n hn' hp with g | ⟨g1, g2, g3⟩
        · exact .inl g
        · rw [g1, ← htl, h1.sl] at g3; cases g3
    simp only [step] at hf ⊢
    split
    · rename_i hr; rw [if_pos hr] at hf; exact absurd rfl (hf _ _)
    · rename_i hr
      rw [if_neg hr] at hf
      split
      · rename_i h0
        rw [if_pos h0] at hf
        split
        · exact G h0 _
        · rename_i c1
          rw [if_neg c1] at hf
          split
          · rename_i c2
            rw [if_pos c2] at hf
            split
            · exact G h0 _
            · rename_i c3; rw [if_neg c3] at hf; exact absurd rfl (hf _ _)
          · rename_i c2; rw [if_neg c2] at hf; exact absurd rfl (hf _ _)
      · exact h
  | lck x p =>
    simp only [step]
    split
    · exact h
    · exact U _ _ rfl rfl id
  | rechk x p =>
    obtain ⟨h1, h2, h3, hs⟩ := ok
    have hB : ∀ n, n ∈ holds (.rechk x p : Pc V) → (s.node n).arr = (s.node n).base := fun n hn =>
      H.same n (P.K n hn).1 (by rintro (hb | hb); exact (P.hB _ hb).2.2 hn; exact hb)
    have hbp := hB p (by simp [holds])
    simp only [step] at hf ⊢
    split
    · exact U _ _ (by simp) (by simp [hbp]) (fun _ => by simp)
    · rename_i h5
      rw [if_neg h5] at hf
      cases hi : findChild (s.node p).arr x.l 0 ((s.node p).arr.nkeys + 1) with
      | none =>
        simp only [hi] at hf ⊢
        split
        · rename_i c1; rw [if_pos c1] at hf; exact absurd rfl (hf _ _)
        · exact U _ _ (by simp) (by simp [hbp]) (fun _ => by simp)
      | some idx =>
        simp only [hi] at hf ⊢
        split
        · exact h
        · rename_i hlt
          have hnk := H.nk p h2
          rw [← hbp] at hnk
          have hful : (s.node p).arr.nkeys = inodeWidth := by omega
          obtain ⟨_, i2, i3⟩ := findChild_some hi
          have hidx : idx ≤ inodeWidth := by omega
          obtain ⟨x1, x2, -⟩ := split_spec inodeWidth (s.node p).arr emptyArr idx x.sep x.y (by decide) hful hidx
          obtain ⟨s1, s2, s3, s4, s5⟩ := splitInode_spec H h1 h2 h3 (P.K p (by simp [holds])).2 hful hidx hbp i3
            (hB _ (by simp [holds])) (hB _ (by simp [holds]))
          intro n hn hp
          by_cases e : n = s.fresh
          · subst e
            left
            rw [s5.2.2.1, x2]; decide
          · obtain ⟨q1, q2, q3, q4, q5, q6, q7, q8, q9, -⟩ := s4 n e
            rw [q1] at hp
            rw [q3]
            by_cases e' : n = p
            · left; rw [if_pos e', x1]; decide
            · rw [if_neg e', s3, q9]
              rcases h n ⟨hn.1, by have := hn.2; rw [s1] at this; omega⟩ hp with g | ⟨g1, g2, g3⟩
              · exact .inl g
              · right
                refine ⟨g1, g2, ?_⟩
                split
                · rfl
                · exact g3
  | ins x p todo =>
    obtain ⟨h1, h2, h3, hs, h5, idx, dn, e1, e2, e3, e4, e5⟩ := ok
    cases todo with
    | nil =>
      rw [List.append_nil] at e4
      have hb : ∀ n, n = x.l ∨ n = x.y → (s.node n).arr = (s.node n).base := by
        intro n hn
        have hne : n ≠ p := by
          rcases hn with rfl | rfl
          · intro e; rw [← e] at h3; omega
          · intro e; have := h1.ht; rw [e] at this; omega
        have hh : n ∈ holds (.ins x p [] : Pc V) := by rcases hn with h | h <;> simp [holds, h]
        exact H.same n (P.K n hh).1 (by rintro (hb | hb); exact (P.hB _ hb).2.2 hh; exact hne hb)
      have hnk : (s.node p).arr.nkeys = (s.node p).base.nkeys + 1 := by
        rw [e5, ← e4, insertStores_fold _ _ _ _ e1]; rfl
      have hp1 : 1 ≤ (s.node p).base.nkeys := by
        rcases h p h2 (by omega) with g | g
        · omega
        · exact g.2.1
      simp only [step]
      refine h.congr rfl fun m hm _ => ⟨hm, ?_⟩
      simp only [mod_node]
      by_cases a : m = x.l
      · rw [if_pos a, a]
        have := hb x.l (.inl rfl)
        have q : x.l ≠ p := by intro e; rw [← e] at h3; omega
        rw [if_neg q, if_neg h1.ne, if_neg h1.ne]; simp [this]
      · rw [if_neg a]
        by_cases b : m = p
        · rw [if_pos b, b]
          have q : p ≠ x.y := by intro e; have := h1.ht; rw [← e] at this; omega
          rw [if_neg q, if_neg q]
          refine ⟨by simp, .inr ?_, fun _ => by simp⟩
          simp only [unlock_base]; omega
        · rw [if_neg b]
          by_cases d : m = x.y
          · rw [if_pos d, d]
            have := hb x.y (.inr rfl)
            simp [this]
          · rw [if_neg d, if_neg d]; exact ⟨rfl, .inl rfl, id⟩
    | cons st todo =>
      simp only [step]
      exact U _ _ rfl rfl id
  | stab o r p =>
    simp only [step]
    split
    · exact h
    · split
      · cases o <;> exact h
      · exact h
  | cmp o r p w a b =>
    simp only [step]
    split
    · split
      · exact h
      · split <;> exact h
    · exact h
  | look o q =>
    simp only [step]
    split
    · exact h
    · split <;> exact h
  | adv o r k q => cases k <;> exact h
  | _ => exact h

theorem exec_half {strict main : Bool} {σ : Nat → St V} {α : Nat → Act V} (E : Exec strict main σ α) :
    ∀ n, (∀ i, ¬ Failed (σ n) i) → Half (σ n).heap
  | 0, _ => by rw [E.start]; intro n _ h; simp [init] at h
  | n + 1, hf => by
    have hn : ∀ j, ¬ Failed (σ n) j := fun j hj => hf j (by rw [E.next]; exact failed_act hj _)
    have ih := exec_half E n hn
    have I := exec_inv E n hn
    have en := E.next n
    rw [en]
    cases ha : α n with
    | call i o => simp only [act]; split <;> exact ih
    | run i =>
      refine step_half (I.pre i) ih fun o e q => hf i ⟨o, e, ?_⟩
      rw [en, ha]; simp only [act, upd_same]; exact q

open Classical in
/-- The nodes of height `k`. -/
noncomputable def level (s : Heap V) (k : Nat) : Finset Nat := (Finset.range s.fresh).filter fun n => Al s n ∧ (s.node n).ht = k

theorem mem_level {s : Heap V} {k n : Nat} : n ∈ level s k ↔ Al s n ∧ (s.node n).ht = k := by
  simp only [level, Finset.mem_filter, Finset.mem_range]
  exact ⟨fun h => h.2, fun h => ⟨h.1.2, h⟩⟩

theorem level_step {main : Bool} {s : Heap V} {O B : Nat → Prop} (H : HInv main s O B) (h : Half s) {k : Nat}
    (hk : k + 1 < (s.node s.top).ht) : (level s (k + 1)).card * 8 ≤ (level s k).card := by
  have : ((level s (k + 1)) ×ˢ (Finset.range 8)).card ≤ (level s k).card := by
    refine Finset.card_le_card_of_injOn (fun q => (s.node q.1).base.child q.2) ?_ ?_
    · rintro ⟨n, i⟩ hq
      simp only [Finset.coe_product, Set.mem_prod, Finset.mem_coe, mem_level, Finset.mem_range] at hq
      obtain ⟨⟨q1, q2⟩, q3⟩ := hq
      have hn : 7 ≤ (s.node n).base.nkeys := by
        rcases h n q1 (by omega) with g | g
        · exact g
        · rw [← g.1, q2] at hk; omega
      obtain ⟨a, b, c⟩ := H.kid n q1 (by omega) i (by omega)
      simp only [Finset.mem_coe, mem_level]
      exact ⟨a, by omega⟩
    · rintro ⟨n, i⟩ hq ⟨n', i'⟩ hq' e
      simp only [Finset.coe_product, Set.mem_prod, Finset.mem_coe, mem_level, Finset.mem_range] at hq hq'
      obtain ⟨⟨q1, q2⟩, q3⟩ := hq
      obtain ⟨⟨r1, r2⟩, r3⟩ := hq'
      have hn : 7 ≤ (s.node n).base.nkeys := by
        rcases h n q1 (by omega) with g | g
        · exact g
        · rw [← g.1, q2] at hk; omega
      have hn' : 7 ≤ (s.node n').base.nkeys := by
        rcases h n' r1 (by omega) with g | g
        · exact g
        · rw [← g.1, r2] at hk; omega
      simp only at e
      have k1 := (H.kid n q1 (by omega) i (by omega)).2.1
      have k2 := (H.kid n' r1 (by omega) i' (by omega)).2.1
      rw [e, k2] at k1
      subst k1
      have := H.inj n' r1 (by omega) i i' (by omega) (by omega) e
      rw [this]
  rwa [Finset.card_product, Finset.card_range] at this

/-- The height is at most logarithmic in the number of nodes. -/
theorem height_log {main : Bool} {s : Heap V} {O B : Nat → Prop} (H : HInv main s O B) (h : Half s) :
    8 ^ ((s.node s.top).ht - 1) < s.fresh := by
  by_cases h0 : (s.node s.top).ht = 0
  · rw [h0]; have := H.topAl.1; have := H.topAl.2; simp; omega
  have A : ∀ j, j < (s.node s.top).ht → 8 ^ j ≤ (level s ((s.node s.top).ht - 1 - j)).card := by
    intro j
    induction j with
    | zero =>
      intro _
      have := (H.kid s.top H.topAl (by omega) 0 (by omega))
      rw [Nat.pow_zero]
      apply Finset.card_pos.2
      exact ⟨_, mem_level.2 ⟨this.1, by omega⟩⟩
    | succ j ih =>
      intro hj
      have := ih (by omega)
      have e : (s.node s.top).ht - 1 - j = (s.node s.top).ht - 1 - (j + 1) + 1 := by omega
      rw [e] at this
      have := level_step H h (k := (s.node s.top).ht - 1 - (j + 1)) (by omega)
      rw [Nat.pow_succ]; omega
  have := A ((s.node s.top).ht - 1) (by omega)
  have c : (level s ((s.node s.top).ht - 1 - ((s.node s.top).ht - 1))).card ≤ ((Finset.range s.fresh).erase s.top).card := by
    apply Finset.card_le_card
    intro n hn
    rw [mem_level] at hn
    refine Finset.mem_erase.2 ⟨?_, Finset.mem_range.2 hn.1.2⟩
    intro e; rw [e] at hn; omega
  rw [Finset.card_erase_of_mem (Finset.mem_range.2 H.topAl.2), Finset.card_range] at c
  have := H.topAl.2
  omega

end Verif.Index
