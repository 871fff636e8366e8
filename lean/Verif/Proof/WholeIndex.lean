import Verif.Model.Whole
import Verif.Proof.IndexOrder5
set_option linter.unusedSimpArgs false
set_option linter.unusedVariables false
/-! The index of a layer when a leaf is split at any key. -/
namespace Verif.Index
open Verif.Internode
open Verif.Whole (splitAt)

section
variable {main : Bool} {s : Heap Unit} {O B : Nat → Prop}

/-- Split of a leaf. -/
theorem Post.leafAt {o : Op Unit} {r l : Nat} (P : Pre main s (.sect o r l) O B) (hl : (s.node l).locked = false) (c : Ctx Unit) (sep : Nat)
    (c1 : c.o = o) (c2 : c.r = r) (c3 : c.l = l) (c4 : c.y = s.fresh)
    (c5 : c.main = (main && (s.node l).rootf && s.root == l))
    (c6 : c.layer = ((s.node l).rootf && (s.node l).parent == 0 && !(main && (s.node l).rootf && s.root == l))) (c7 : c.stale = 0) :
    Post main s (.sect o r l) O B (splitAt s l sep) (.par c) := by
  obtain ⟨h1, h2, h3, h4⟩ := P.ok
  have H := P.H
  simp only [right, busy, or_false] at H
  have hlf : l ≠ s.fresh := by have := h2.2; omega
  have hfr : 0 < s.fresh := by have := h2.2; omega
  let s' := splitAt s l sep
  have hf : s'.fresh = s.fresh + 1 := rfl
  have htop : s'.top = s.top := rfl
  have hroot : s'.root = s.root := rfl
  have old : ∀ n, n ≠ s.fresh → (s'.node n).ht = (s.node n).ht ∧ (s'.node n).lo = (s.node n).lo ∧
      (s'.node n).base = (s.node n).base ∧ (s'.node n).arr = (s.node n).arr ∧ (s'.node n).parent = (s.node n).parent ∧
      (s'.node n).rootf = (s.node n).rootf ∧ (s'.node n).next = (if n = l then s.fresh else (s.node n).next) ∧
      (s'.node n).locked = (if n = l then true else (s.node n).locked) ∧
      (s'.node n).splitting = (if n = l then true else (s.node n).splitting) := by
    intro n hn
    simp only [s', splitAt, upd, if_neg hn]
    by_cases e : n = l
    · subst e; simp
    · simp [e]
  have new : (s'.node s.fresh).ht = 0 ∧ (s'.node s.fresh).base = emptyArr ∧ (s'.node s.fresh).arr = emptyArr ∧
      (s'.node s.fresh).parent = 0 ∧ (s'.node s.fresh).next = (s.node l).next ∧ (s'.node s.fresh).locked = true ∧
      (s'.node s.fresh).splitting = true := by
    simp [s', splitAt, upd]
  have nf : ∀ {n}, Al s n → n ≠ s.fresh := by intro n h; have := h.2; omega
  have A : ∀ {n}, Al s n → Al s' n := fun h => ⟨h.1, by rw [hf]; have := h.2; omega⟩
  have A' : ∀ {n}, Al s' n → n ≠ s.fresh → Al s n := fun h hn => ⟨h.1, by have := h.2; rw [hf] at this; omega⟩
  show Post main s (.sect o r l) O B s' (.par c)
  refine ⟨⟨by rw [hf]; omega, fun n hn => (old n (nf hn)).1, fun n hn => (old n (nf hn)).2.1, ?_, ?_, .inl rfl, ?_, ?_⟩, ?_, ?_⟩
  · intro n hn _ hn'
    obtain ⟨g1, g2, g3, g4, g5, g6, g7, g8, g9⟩ := old n (nf hn)
    have : n ≠ l := by intro e; apply hn'; simp [holds, e, c3]
    rw [g8, g9, g3, g4, if_neg this, if_neg this]
    exact ⟨rfl, rfl, rfl, rfl⟩
  · intro n hn; exact .inl (old n (nf hn)).2.2.2.2.1
  · intro n hn
    simp only [holds, List.mem_cons, List.not_mem_nil, or_false, c3, c4] at hn
    rcases hn with e | e
    · rw [e]
      refine ⟨A h2, ?_, .inr ?_⟩
      · rw [(old l hlf).2.2.2.2.2.2.2.1, if_pos rfl]
      · rw [hl]; simp
    · rw [e]
      refine ⟨⟨hfr, by rw [hf]; omega⟩, new.2.2.2.2.2.1, .inr ?_⟩
      intro h; exact nf h.1 rfl
  · intro n hn hk
    by_cases e : n = s.fresh
    · left; simp [holds, e, c4]
    · by_cases e2 : n = l
      · left; simp [holds, e2, c3]
      · right
        rw [(old n e).2.2.2.2.2.2.2.1, if_neg e2] at hk
        exact ⟨A' hn e, hk, by simp [holds]⟩
  · have hr : ∀ n, right (.par c : Pc Unit) n ↔ n = s.fresh := by intro n; simp [right, c4]
    simp only [hr, busy, or_false]
    constructor
    · rw [htop]; exact A H.topAl
    · rw [htop, (old _ (nf H.topAl)).2.2.2.2.1]; exact H.topPar
    · rw [htop, (old _ (nf H.topAl)).2.2.2.2.2.1]; exact H.topRoot
    · rw [htop]; intro h
      rcases h with h | h
      · exact H.topO h
      · exact nf H.topAl h
    · rw [hroot]; exact A H.rootAl
    · rw [hroot, htop]; exact H.rootTop
    · intro n hn h0 i hi
      have e : n ≠ s.fresh := by intro e; rw [e, new.1] at h0; omega
      have hn := A' hn e
      rw [(old n e).1] at h0
      rw [(old n e).2.2.1] at hi ⊢
      obtain ⟨m1, m2, m3⟩ := H.kid n hn h0 i hi
      rw [(old _ (nf m1)).1, (old _ (nf m1)).2.2.2.2.1, (old n e).1]
      exact ⟨A m1, m2, m3⟩
    · intro n hn h0
      have e : n ≠ s.fresh := by intro e; rw [e, new.1] at h0; omega
      rw [(old n e).1] at h0
      rw [(old n e).2.2.1]
      exact H.inj n (A' hn e) h0
    · intro n hn
      by_cases e : n = s.fresh
      · rw [e, new.2.1]; simp [emptyArr]
      · rw [(old n e).2.2.1]; exact H.nk n (A' hn e)
    · intro n hn h0
      have e : n ≠ s.fresh := by intro e; rw [e, new.2.2.2.1] at h0; exact h0 rfl
      rw [(old n e).2.2.2.2.1] at h0 ⊢
      obtain ⟨m1, m2, m3⟩ := H.par n (A' hn e) h0
      rw [(old _ (nf m1)).1, (old _ (nf m1)).2.2.1]
      exact ⟨A m1, m2, m3⟩
    · intro n hn i
      by_cases e : n = s.fresh
      · left; rw [e, new.2.2.1]; rfl
      · rw [(old n e).2.2.2.1]
        rcases H.cells n (A' hn e) i with h | ⟨h, h'⟩
        · exact .inl h
        · right; rw [(old _ (nf h)).1, (old n e).1]; exact ⟨A h, h'⟩
    · intro n hn
      by_cases e : n = s.fresh
      · rw [e, new.2.2.2.2.1]
        rcases H.next l h2 with h | ⟨h, h'⟩
        · exact .inl h
        · right; rw [(old _ (nf h)).1]; exact ⟨A h, h'⟩
      · rw [(old n e).2.2.2.2.2.2.1]
        split
        · right; exact ⟨⟨hfr, by rw [hf]; omega⟩, new.1⟩
        · rcases H.next n (A' hn e) with h | ⟨h, h'⟩
          · exact .inl h
          · right; rw [(old _ (nf h)).1]; exact ⟨A h, h'⟩
    · intro n hn h0
      by_cases e : n = s.fresh
      · exact .inr (.inr e)
      · rw [(old n e).2.2.2.2.1] at h0
        rcases H.orph n (A' hn e) h0 with h | h
        · exact .inl h
        · exact .inr (.inl h)
    · intro n hn hb
      by_cases e : n = s.fresh
      · rw [e, new.2.1, new.2.2.1]
      · rw [(old n e).2.2.1, (old n e).2.2.2.1]; exact H.same n (A' hn e) hb
    · intro n hn
      rw [htop, (old _ (nf H.topAl)).1]
      by_cases e : n = s.fresh
      · rw [e, new.1]; omega
      · rw [(old n e).1]; exact H.low n (A' hn e)
    · intro n hn
      by_cases e : n = s.fresh
      · intro _; rw [e]; exact new.2.2.2.2.2.1
      · rw [(old n e).2.2.2.2.2.2.2.1, (old n e).2.2.2.2.2.2.2.2]
        split
        · intro _; rfl
        · exact H.spl n (A' hn e)
  · show CtxOk main s' c
    have hol : (s.node l).parent = 0 → l = s.top := by
      intro h0
      rcases H.orph l h2 h0 with h | h
      · exact h
      · have := (P.hO l h).2.1; rw [hl] at this; cases this
    refine ⟨?_, ?_, ?_, ?_, ?_, ?_, ?_, ?_, ?_, c7, ?_⟩
    · rw [c3]; exact A h2
    · rw [c4]; exact ⟨hfr, by rw [hf]; omega⟩
    · rw [c2]; exact A h1
    · rw [c3, c4]; exact hlf
    · rw [c3, c4, new.1, (old l hlf).1, h3]
    · rw [c4]; exact new.2.2.2.1
    · rw [c3, (old l hlf).2.2.2.2.2.2.2.2, if_pos rfl]
    · rw [c4]; exact new.2.2.2.2.2.2
    · rw [htop, c5, c6, c3]
      cases main with
      | true =>
        simp only [if_true, Bool.true_and]
        have rt := H.rootTop rfl
        constructor
        · cases hrf : (s.node l).rootf with
          | false => rfl
          | true =>
            by_cases h0 : (s.node l).parent = 0
            · rw [rt, hol h0]; simp
            · simp [h0]
        · intro e
          rw [rt, e, H.topRoot]; simp
      | false =>
        simp only [Bool.false_and, Bool.not_false, Bool.and_true]
        refine ⟨trivial, ?_⟩
        intro e
        rw [e, H.topRoot, H.topPar]; rfl
    · rw [c1]; exact h4

/-- The order of keys after the split of a leaf. -/
theorem orderAt {o : Op Unit} {r l sep : Nat} (P : Pre main s (.sect o r l) O B) (I : OInv s) (r1 : (s.node r).lo = 0) (c : Ctx Unit)
    (c1 : c.l = l) (c2 : c.y = s.fresh) (c3 : c.sep = sep) (c4 : c.r = r) (lly : (s.node l).lo < sep)
    (hnx : (s.node l).next ≠ 0 → sep < (s.node (s.node l).next).lo) :
    Ver s (splitAt s l sep) ∧ New s (splitAt s l sep) (.par c) ∧ OInv (splitAt s l sep) ∧ ROk (splitAt s l sep) (.par c) := by
  obtain ⟨h1, h2, h3, _⟩ := P.ok
  have H := P.H
  let y := s.fresh
  have hlf : l ≠ y := by have := h2.2; omega
  let s' := splitAt s l sep
  have ey : (s'.node y).ht = 0 ∧ (s'.node y).lo = sep ∧ (s'.node y).ents = [] ∧ (s'.node y).next = (s.node l).next := by
    simp [s', splitAt, y, upd]
  have el : (s'.node l).ents = [] ∧ (s'.node l).next = y := by
    simp only [s', splitAt, upd]
    rw [if_neg hlf]; simp [y]
  have e : ∀ n, n ≠ y → (s'.node n).ht = (s.node n).ht ∧ (s'.node n).lo = (s.node n).lo ∧ (s'.node n).base = (s.node n).base ∧
      (n ≠ l → (s'.node n).ents = (s.node n).ents ∧ (s'.node n).next = (s.node n).next) := by
    intro n hn
    simp only [s', splitAt, upd, y] at hn ⊢
    rw [if_neg hn]
    by_cases c : n = l
    · subst c; simp
    · simp [c]
  have hA : ∀ n, Al s' n ↔ Al s n ∨ n = y := by
    intro n
    have : s'.fresh = s.fresh + 1 := rfl
    have := H.topAl.2
    have := H.topAl.1
    simp only [Al, y]; omega
  have ny : ∀ n, Al s n → n ≠ y := by intro n hn; have := hn.2; simp only [y]; omega
  have nxy : ∀ n, Al s n → (s.node n).next ≠ 0 → Al s (s.node n).next := by
    intro n h h'
    rcases H.next n h with g | g
    · exact absurd g h'
    · exact g.1
  have loy : (s'.node y).lo = sep := ey.2.1
  have nb : ∀ b, Al s b → (s.node b).ht = 0 → (s.node l).lo < (s.node b).lo → sep < (s.node b).lo := by
    intro b hb hb0 hlt
    obtain ⟨q1, q2⟩ := I.nx l b h2 hb h3 hb0 hlt
    have := hnx q1; omega
  have left : ∀ a, Al s a → (s.node a).ht = 0 → a ≠ l → (s.node a).lo < sep → (s.node a).lo < (s.node l).lo := by
    intro a ha ha0 hne hlt
    rcases Nat.lt_trichotomy (s.node l).lo (s.node a).lo with q | q | q
    · have := nb a ha ha0 q; omega
    · exact absurd (I.uniq a l ha h2 (by omega) q.symm) hne
    · exact q
  show Ver s s' ∧ New s s' _ ∧ OInv s' ∧ ROk s' _
  refine ⟨?_, ?_, ?_, ?_⟩
  · intro n hn
    have := ny n hn
    simp only [s', splitAt, upd, y] at this ⊢
    rw [if_neg this]
    split
    · rename_i q; subst q; exact .of_locked rfl rfl
    · exact .refl _
  · intro z hz hz'
    rcases (hA z).1 hz with q | q
    · exact absurd q hz'
    · right
      subst q
      refine ⟨l, h2, by simp [holds, c1], ?_, ?_, ?_⟩
      · rw [ey.1, h3]
      · rw [loy]; exact lly
      · intro b hb hb0 hlt; rw [loy]; rw [h3] at hb0; exact nb b hb hb0 hlt
  · constructor
    · have : s'.top = s.top := rfl
      rw [this, (e _ (ny _ H.topAl)).2.1]; exact I.topLo
    · have : s'.root = s.root := rfl
      rw [this, (e _ (ny _ H.rootAl)).2.1]; exact I.rootLo
    · intro n hn h0
      rcases (hA n).1 hn with q | q
      · obtain ⟨e1, e2, e3, _⟩ := e n (ny n q); rw [e1] at h0; rw [e3]; exact I.srt n q h0
      · rw [q, ey.1] at h0; cases h0
    · intro n hn h0
      rcases (hA n).1 hn with q | q
      · obtain ⟨e1, e2, e3, _⟩ := e n (ny n q); rw [e1] at h0
        rw [e3, e2, (e _ (ny _ (H.kid n q h0 0 (by omega)).1)).2.1]; exact I.fst n q h0
      · rw [q, ey.1] at h0; cases h0
    · intro n hn h0
      rcases (hA n).1 hn with q | q
      · obtain ⟨e1, e2, e3, _⟩ := e n (ny n q); rw [e1] at h0; rw [e3]
        intro i hi
        rw [(e _ (ny _ (H.kid n q h0 (i + 1) (by omega)).1)).2.1]; exact I.key n q h0 i hi
      · rw [q, ey.1] at h0; cases h0
    · intro n hn h0
      rcases (hA n).1 hn with q | q
      · obtain ⟨e1, e2, e3, _⟩ := e n (ny n q); rw [e1] at h0; rw [e3, e2]; exact I.abv n q h0
      · rw [q, ey.1] at h0; cases h0
    · intro a b ha hb hh hlo
      rcases (hA a).1 ha with qa | qa <;> rcases (hA b).1 hb with qb | qb
      · rw [(e a (ny a qa)).1, (e b (ny b qb)).1] at hh
        rw [(e a (ny a qa)).2.1, (e b (ny b qb)).2.1] at hlo
        exact I.uniq a b qa qb hh hlo
      · subst qb
        rw [(e a (ny a qa)).1, ey.1] at hh
        rw [(e a (ny a qa)).2.1, loy] at hlo
        rcases Nat.lt_trichotomy (s.node l).lo (s.node a).lo with q | q | q
        · have := nb a qa hh q; omega
        · omega
        · omega
      · subst qa
        rw [(e b (ny b qb)).1, ey.1] at hh
        rw [(e b (ny b qb)).2.1, loy] at hlo
        rcases Nat.lt_trichotomy (s.node l).lo (s.node b).lo with q | q | q
        · have := nb b qb hh.symm q; omega
        · omega
        · omega
      · rw [qa, qb]
    · intro a b ha hb h0 hh hlt
      rcases (hA a).1 ha with qa | qa
      · rcases (hA b).1 hb with qb | qb
        · obtain ⟨e1, e2, e3, _⟩ := e a (ny a qa)
          rw [e1] at h0 hh; rw [(e b (ny b qb)).1] at hh
          rw [e2, (e b (ny b qb)).2.1] at hlt
          rw [e3, (e b (ny b qb)).2.1]; exact I.keys a b qa qb h0 hh hlt
        · rw [qb, ey.1] at hh; omega
      · rw [qa, ey.1] at h0; cases h0
    · intro n hn h0
      rcases (hA n).1 hn with q | q
      · rw [(e n (ny n q)).1] at h0
        by_cases c : n = l
        · rw [c, el.1]; exact List.Pairwise.nil
        · rw [((e n (ny n q)).2.2.2 c).1]; exact I.asc n q h0
      · rw [q, ey.2.2.1]; exact List.Pairwise.nil
    · intro n hn h0 x hx
      rcases (hA n).1 hn with q | q
      · rw [(e n (ny n q)).1] at h0
        rw [(e n (ny n q)).2.1]
        by_cases c : n = l
        · subst c; rw [el.1] at hx; cases hx
        · rw [((e n (ny n q)).2.2.2 c).1] at hx; exact I.bnd n q h0 x hx
      · subst q; rw [ey.2.2.1] at hx; cases hx
    · intro a b ha hb h0 hb0 hlt x hx
      rcases (hA a).1 ha with qa | qa
      · rw [(e a (ny a qa)).1] at h0
        rw [(e a (ny a qa)).2.1] at hlt
        have hx' : x ∈ (s.node a).ents ∧ a ≠ l := by
          by_cases c : a = l
          · subst c; rw [el.1] at hx; cases hx
          · rw [((e a (ny a qa)).2.2.2 c).1] at hx; exact ⟨hx, c⟩
        rcases (hA b).1 hb with qb | qb
        · rw [(e b (ny b qb)).1] at hb0
          rw [(e b (ny b qb)).2.1] at hlt ⊢
          exact I.sep a b qa qb h0 hb0 hlt x hx'.1
        · subst qb
          rw [loy] at hlt ⊢
          by_cases c : a = l
          · exact absurd c hx'.2
          · have q := left a qa h0 c hlt
            have := I.sep a l qa h2 h0 h3 q x hx'.1
            omega
      · subst qa
        rw [ey.2.2.1] at hx
        cases hx
    · intro a b ha hb h0 hb0 hlt
      rcases (hA a).1 ha with qa | qa
      · rw [(e a (ny a qa)).1] at h0
        rw [(e a (ny a qa)).2.1] at hlt
        by_cases c : a = l
        · subst c
          rw [el.2]
          refine ⟨by have := H.topAl.2; simp only [y]; omega, ?_⟩
          rcases (hA b).1 hb with qb | qb
          · rw [(e b (ny b qb)).1] at hb0
            rw [(e b (ny b qb)).2.1] at hlt ⊢
            rw [loy]; exact Nat.le_of_lt (nb b qb hb0 hlt)
          · rw [qb]; exact Nat.le_refl _
        · rw [((e a (ny a qa)).2.2.2 c).2]
          have key : ∃ z, Al s z ∧ (s.node z).ht = 0 ∧ (s.node a).lo < (s.node z).lo ∧ (s.node z).lo ≤ (s'.node b).lo := by
            rcases (hA b).1 hb with qb | qb
            · rw [(e b (ny b qb)).1] at hb0
              rw [(e b (ny b qb)).2.1] at hlt ⊢
              exact ⟨b, qb, hb0, hlt, Nat.le_refl _⟩
            · subst qb; rw [loy] at hlt ⊢; exact ⟨l, h2, h3, left a qa h0 c hlt, by omega⟩
          obtain ⟨z, z1, z2, z3, z4⟩ := key
          obtain ⟨q1, q2⟩ := I.nx a z qa z1 h0 z2 z3
          refine ⟨q1, ?_⟩
          rw [(e _ (ny _ (nxy a qa q1))).2.1]; omega
      · subst qa
        rw [loy] at hlt
        rw [ey.2.2.2]
        rcases (hA b).1 hb with qb | qb
        · rw [(e b (ny b qb)).1] at hb0
          rw [(e b (ny b qb)).2.1] at hlt ⊢
          obtain ⟨q1, q2⟩ := I.nx l b h2 qb h3 hb0 (by omega)
          refine ⟨q1, ?_⟩
          rw [(e _ (ny _ (nxy l h2 q1))).2.1]; exact q2
        · rw [qb, loy] at hlt; omega
    · intro a ha h0 hnx
      rcases (hA a).1 ha with qa | qa
      · rw [(e a (ny a qa)).1] at h0
        rw [(e a (ny a qa)).2.1]
        by_cases c : a = l
        · subst c; rw [el.2, loy]; exact lly
        · rw [((e a (ny a qa)).2.2.2 c).2] at hnx ⊢
          rw [(e _ (ny _ (nxy a qa hnx))).2.1]; exact I.nx' a qa h0 hnx
      · subst qa
        rw [ey.2.2.2] at hnx ⊢
        have q := nxy l h2 hnx
        rw [loy, (e _ (ny _ q)).2.1]
        refine nb _ q ?_ (I.nx' l h2 h3 hnx)
        rcases H.next l h2 with z | z
        · exact absurd z hnx
        · exact z.2
  · refine ⟨?_, ?_, ?_, ?_⟩
    · rw [c2, c3]; exact ey.2.1
    · rw [c1, (e l hlf).2.1, c3]; exact lly
    · intro z hz hh hne hlt
      rw [c1, (e l hlf).1, h3] at hh
      rw [c1, (e l hlf).2.1] at hlt
      rcases (hA z).1 hz with q | q
      · rw [(e z (ny z q)).1] at hh
        rw [(e z (ny z q)).2.1] at hlt ⊢
        rw [c3]; exact nb z q hh hlt
      · exact absurd (by rw [q, c2]) hne
    · rw [c4, (e r (ny r h1)).2.1]; exact r1
end

/-- A thread that holds nothing goes on elsewhere and holds nothing there. -/
theorem Full.jump {main : Bool} {s : St Unit} (F : Full main s) {i : Nat} {c' : Pc Unit} (h : holds (s.pc i) = []) (h' : holds c' = [])
    (hp : PcOk main s.heap c') (hr : ROk s.heap c') : Full main ⟨s.heap, upd s.pc i c'⟩ := by
  have nr : ∀ {c : Pc Unit}, holds c = [] → ∀ n, ¬ right c n := fun hc n hn => by
    have := right_holds hn; rw [hc] at this; cases this
  have nb : ∀ {c : Pc Unit}, holds c = [] → ∀ n, ¬ busy c n := fun hc n hn => by
    have := busy_holds hn; rw [hc] at this; cases this
  refine ⟨F.I.post (Post.read (F.I.pre i) h h' (nr h) (nr h') (nb h) (nb h') hp), F.O, ?_⟩
  intro j
  by_cases c : j = i
  · subst c; simp only [upd_same]; exact hr
  · simp only [upd_ne _ _ _ c]; exact F.R j

/-- A leaf is split at any key inside its range. -/
theorem Full.splitAt {main : Bool} {s : St Unit} (F : Full main s) {i : Nat} {o : Op Unit} {r l sep : Nat}
    (hpc : s.pc i = .sect o r l) (hl : (s.heap.node l).locked = false) (lly : (s.heap.node l).lo < sep)
    (hnx : (s.heap.node l).next ≠ 0 → sep < (s.heap.node (s.heap.node l).next).lo) (c : Ctx Unit)
    (c1 : c.o = o) (c2 : c.r = r) (c3 : c.l = l) (c4 : c.y = s.heap.fresh) (c4' : c.sep = sep)
    (c5 : c.main = (main && (s.heap.node l).rootf && s.heap.root == l))
    (c6 : c.layer = ((s.heap.node l).rootf && (s.heap.node l).parent == 0 && !(main && (s.heap.node l).rootf && s.heap.root == l)))
    (c7 : c.stale = 0) : Full main ⟨Whole.splitAt s.heap l sep, upd s.pc i (.par c)⟩ := by
  have P := F.I.pre i
  have R := F.R i
  rw [hpc] at P R
  have Q := Post.leafAt P hl c sep c1 c2 c3 c4 c5 c6 c7
  obtain ⟨w1, w2, w3, w4⟩ := orderAt P F.O R.1 c c3 c4 c4' c2 lly hnx
  rw [← hpc] at Q
  refine ⟨F.I.post Q, w3, ?_⟩
  intro j
  by_cases cj : j = i
  · subst cj; simp only [upd_same]; exact w4
  · simp only [upd_ne _ _ _ cj]
    refine ROk.frame Q.L w1 w2 F.O ?_ (F.I.ok j) (F.R j)
    intro n hn hn'
    rcases (Q.L.new n hn').2.2 with g | g
    · exact cj (F.I.excl j i n hn g)
    · exact g (F.I.hold j n hn)

section
variable {V : Type}

/-- Nothing happens to the leaves. -/
def SameLeaves (s s' : Heap V) : Prop :=
  ∀ n, Al s' n → (s'.node n).ht = 0 → Al s n ∧ (s'.node n).next = (s.node n).next ∧ ((s'.node n).locked = true → (s.node n).locked = true)

theorem SameLeaves.refl (s : Heap V) : SameLeaves s s := fun _ h _ => ⟨h, rfl, id⟩

theorem SameLeaves.mod {s s' : Heap V} (h : SameLeaves s s') (m : Nat) (f : Node V → Node V) (h1 : (f (s'.node m)).ht = (s'.node m).ht)
    (h2 : (f (s'.node m)).next = (s'.node m).next)
    (h3 : (s'.node m).ht = 0 → (f (s'.node m)).locked = true → (s'.node m).locked = true) : SameLeaves s (s'.mod m f) := by
  intro n hn h0
  rw [mod_node] at h0 ⊢
  split
  · rename_i e
    subst e
    rw [if_pos rfl, h1] at h0
    obtain ⟨a, b, c⟩ := h n hn h0
    exact ⟨a, h2.trans b, fun g => c (h3 h0 g)⟩
  · rename_i e
    rw [if_neg e] at h0
    exact h n hn h0

theorem SameLeaves.new {s s' : Heap V} {r t : Nat} {x : Node V} (h : SameLeaves s s') (hx : x.ht ≠ 0) :
    SameLeaves s ⟨upd s'.node s'.fresh x, s'.fresh + 1, r, t⟩ := by
  intro n hn h0
  by_cases e : n = s'.fresh
  · subst e
    have : (upd s'.node s'.fresh x s'.fresh).ht = 0 := h0
    rw [upd_same] at this
    exact absurd this hx
  · have h0 : (upd s'.node s'.fresh x n).ht = 0 := h0
    have hn : 0 < n ∧ n < s'.fresh + 1 := hn
    show Al s n ∧ (upd s'.node s'.fresh x n).next = _ ∧ ((upd s'.node s'.fresh x n).locked = true → _)
    rw [upd_ne _ _ _ e] at h0 ⊢
    exact h n ⟨hn.1, by omega⟩ h0

theorem SameLeaves.parents {s s' : Heap V} (h : SameLeaves s s') (a : Arr Nat) (q : Nat) : ∀ k, SameLeaves s (setParents s' a q k)
  | 0 => h
  | k + 1 => (h.parents a q k).mod _ _ rfl rfl (fun _ g => g)

/-- A thread in the internodes does not touch the leaves, except to let go of their locks. -/
theorem step_leaves {strict main : Bool} {s : Heap Unit} {c : Pc Unit} (ok : PcOk main s c) (hi : Whole.inIndex c = true) :
    SameLeaves s (step strict main s c).1 := by
  have R := SameLeaves.refl s
  have U : ∀ {s' : Heap Unit} (m : Nat), SameLeaves s s' → SameLeaves s (s'.mod m Node.unlock) :=
    fun m h => h.mod m _ (by simp) (by simp) (fun _ g => by simp at g)
  cases c with
  | look o l => simp [Whole.inIndex] at hi
  | nxt o l => simp [Whole.inIndex] at hi
  | adv o r h l => simp [Whole.inIndex] at hi
  | sect o r l => simp [Whole.inIndex] at hi
  | stab o r p =>
    simp only [step]
    split
    · exact R
    · split
      · cases o <;> exact R
      · exact R
  | cmp o r p w a b =>
    simp only [step]
    split
    · split
      · exact R
      · split <;> exact R
    · exact R
  | par x =>
    have G : ∀ m, SameLeaves s (newRoot m s x) := by
      intro m
      unfold newRoot
      refine SameLeaves.mod (SameLeaves.mod (R.new ?_) _ _ ?_ ?_ ?_) _ _ ?_ ?_ ?_ <;> simp
    simp only [step]
    split
    · exact U _ (U _ R)
    · split
      · split
        · exact G _
        · split
          · split
            · exact G _
            · exact U _ (U _ R)
          · exact U _ (U _ R)
      · exact R
  | lck x p =>
    obtain ⟨h1, h2, h3⟩ := ok
    simp only [step]
    split
    · exact R
    · exact R.mod _ _ rfl rfl (fun g => by omega)
  | rechk x p =>
    obtain ⟨h1, h2, h3, h4⟩ := ok
    simp only [step]
    split
    · exact U _ R
    · split
      · split
        · exact U _ (U _ (U _ R))
        · exact U _ R
      · split
        · exact R
        · unfold splitInode
          refine U _ (U _ (SameLeaves.mod (SameLeaves.parents ?_ _ _ _) _ _ rfl rfl (fun _ g => g)))
          intro n hn h0
          refine (SameLeaves.new (s' := s.mod p _) (r := s.root) (t := s.top) (R.mod p (fun _ => _) ?_ ?_ ?_) ?_) n hn h0
          all_goals simp
          all_goals omega
  | ins x p todo =>
    obtain ⟨h1, h2, h3, h4⟩ := ok
    cases todo with
    | nil =>
      simp only [step]
      exact U _ (U _ (U _ (R.mod _ _ rfl rfl (fun _ g => g))))
    | cons st todo =>
      simp only [step]
      exact R.mod _ _ rfl rfl (fun _ g => g)
  | _ => exact R

/-- The call that a thread is in. -/
def Pc.op : Pc V → Option (Op V)
  | .idle => none
  | .climb o _ | .stab o _ _ | .nk o _ _ _ | .cmp o _ _ _ _ _ | .chld o _ _ _ _ | .chk o _ _ _ _ | .chk2 o _ _ _ | .look o _
  | .nxt o _ | .adv o _ _ _ | .sect o _ _ | .done o _ | .fail o _ => some o
  | .par c | .lck c _ | .rechk c _ | .ins c _ _ => some c.o

theorem step_op {strict main : Bool} {s : Heap Unit} {c : Pc Unit} (hi : Whole.inIndex c = true) : (step strict main s c).2.op = c.op := by
  cases c with
  | look o l => simp [Whole.inIndex] at hi
  | nxt o l => simp [Whole.inIndex] at hi
  | adv o r h l => simp [Whole.inIndex] at hi
  | sect o r l => simp [Whole.inIndex] at hi
  | climb o p => simp only [step]; split <;> rfl
  | stab o r p =>
    simp only [step]
    split
    · rfl
    · split
      · cases o <;> rfl
      · rfl
  | cmp o r p w a b =>
    simp only [step]
    split
    · split
      · rfl
      · split <;> rfl
    · rfl
  | chld o r p w i => simp only [step]; split <;> rfl
  | chk o r p w i => simp only [step]; split <;> rfl
  | chk2 o r p w => simp only [step]; split <;> rfl
  | par x =>
    simp only [step]
    split
    · rfl
    · split
      · split
        · rfl
        · split
          · split <;> rfl
          · rfl
      · rfl
  | lck x p => simp only [step]; split <;> rfl
  | rechk x p =>
    simp only [step]
    split
    · rfl
    · split
      · split <;> rfl
      · split <;> rfl
  | ins x p todo => cases todo <;> rfl
  | _ => rfl

/-- A thread in the internodes comes to the leaves of an insert only at the door. -/
theorem step_sect {strict main : Bool} {s : Heap Unit} {c : Pc Unit} (hi : Whole.inIndex c = true) {o : Op Unit} {r l : Nat} :
    (step strict main s c).2 ≠ .sect o r l := by
  cases c with
  | look o l => simp [Whole.inIndex] at hi
  | nxt o l => simp [Whole.inIndex] at hi
  | adv o r h l => simp [Whole.inIndex] at hi
  | sect o r l => simp [Whole.inIndex] at hi
  | climb o p => simp only [step]; split <;> nofun
  | stab o r p =>
    simp only [step]
    split
    · nofun
    · split
      · cases o <;> nofun
      · nofun
  | cmp o r p w a b =>
    simp only [step]
    split
    · split
      · nofun
      · split <;> nofun
    · nofun
  | chld o r p w i => simp only [step]; split <;> nofun
  | chk o r p w i => simp only [step]; split <;> nofun
  | chk2 o r p w => simp only [step]; split <;> nofun
  | par x =>
    simp only [step]
    split
    · nofun
    · split
      · split
        · nofun
        · split
          · split <;> nofun
          · nofun
      · nofun
  | lck x p => simp only [step]; split <;> nofun
  | rechk x p =>
    simp only [step]
    split
    · nofun
    · split
      · split <;> nofun
      · split <;> nofun
  | ins x p todo => cases todo <;> nofun
  | _ => nofun

end
end Verif.Index
