import Verif.Proof.IndexStep2
set_option linter.unusedSimpArgs false
set_option linter.unusedVariables false
/-! The steps that allocate a node. -/
namespace Verif.Index
open Verif.Internode
variable {V : Type}

section
variable {main : Bool} {s : Heap V} {O B : Nat → Prop}

/-- Split of a leaf. -/
theorem Post.leaf {o : Op V} {r l : Nat} (P : Pre main s (.sect o r l) O B) (hl : (s.node l).locked = false) (c : Ctx V)
    (c1 : c.o = o) (c2 : c.r = r) (c3 : c.l = l) (c4 : c.y = s.fresh)
    (c5 : c.main = (main && (s.node l).rootf && s.root == l))
    (c6 : c.layer = ((s.node l).rootf && (s.node l).parent == 0 && !(main && (s.node l).rootf && s.root == l))) (c7 : c.stale = 0) :
    Post main s (.sect o r l) O B (splitLeaf s l) (.par c) := by
  obtain ⟨h1, h2, h3, h4⟩ := P.ok
  have H := P.H
  simp only [right, busy, or_false] at H
  have hlf : l ≠ s.fresh := by have := h2.2; omega
  have hfr : 0 < s.fresh := by have := h2.2; omega
  let s' := splitLeaf s l
  have hf : s'.fresh = s.fresh + 1 := rfl
  have htop : s'.top = s.top := rfl
  have hroot : s'.root = s.root := rfl
  have old : ∀ n, n ≠ s.fresh → (s'.node n).ht = (s.node n).ht ∧ (s'.node n).lo = (s.node n).lo ∧
      (s'.node n).base = (s.node n).base ∧ (s'.node n).arr = (s.node n).arr ∧ (s'.node n).parent = (s.node n).parent ∧
      (s'.node n).rootf = (s.node n).rootf ∧ (s'.node n).next = (if n = l then s.fresh else (s.node n).next) ∧
      (s'.node n).locked = (if n = l then true else (s.node n).locked) ∧
      (s'.node n).splitting = (if n = l then true else (s.node n).splitting) := by
    intro n hn
    simp only [s', splitLeaf, upd, if_neg hn]
    by_cases e : n = l
    · subst e; simp
    · simp [e]
  have new : (s'.node s.fresh).ht = 0 ∧ (s'.node s.fresh).base = emptyArr ∧ (s'.node s.fresh).arr = emptyArr ∧
      (s'.node s.fresh).parent = 0 ∧ (s'.node s.fresh).next = (s.node l).next ∧ (s'.node s.fresh).locked = true ∧
      (s'.node s.fresh).splitting = true := by
    simp [s', splitLeaf, upd]
  have nf : ∀ {n}, Al s n → n ≠ s.fresh := by intro n h; have := h.2; omega
  have A : ∀ {n}, Al s n → Al s' n := fun h => ⟨h.1, by rw [hf]; have := h.2; omega⟩
  have A' : ∀ {n}, Al s' n → n ≠ s.fresh → Al s n := fun h hn => ⟨h.1, by have := h.2; rw [hf] at this; omega⟩
  show Post main s (.sect o r l) O B s' (.par c)
  refine ⟨⟨by rw [hf]; omega, fun n hn => (old n (nf hn)).1, fun n hn => (old n (nf hn)).2.1, ?_, ?_, .inl rfl, ?_, ?_⟩, ?_, ?_⟩
  · intro n hn _ hn'
    obtain ⟨g1, g2, g3, g4, g5, g6, g7, g8, g9⟩ := old n (nf hn)
    have : n ≠ l := by intro e; apply hn'; simp [holds, e, c3]
    rw [g8, g9, g3, g4, if_neg this, if_neg this]
    exact ⟨rfl, rfl, rfl, rfl⟩
  · intro n hn; exact .inl (old n (nf hn)).2.2.2.2.1
  · intro n hn
    simp only [holds, List.mem_cons, List.not_mem_nil, or_false, c3, c4] at hn
    rcases hn with e | e
    · rw [e]
      refine ⟨A h2, ?_, .inr ?_⟩
      · rw [(old l hlf).2.2.2.2.2.2.2.1, if_pos rfl]
      · rw [hl]; simp
    · rw [e]
      refine ⟨⟨hfr, by rw [hf]; omega⟩, new.2.2.2.2.2.1, .inr ?_⟩
      intro h; exact nf h.1 rfl
  · intro n hn hk
    by_cases e : n = s.fresh
    · left; simp [holds, e, c4]
    · by_cases e2 : n = l
      · left; simp [holds, e2, c3]
      · right
        rw [(old n e).2.2.2.2.2.2.2.1, if_neg e2] at hk
        exact ⟨A' hn e, hk, by simp [holds]⟩
  · have hr : ∀ n, right (.par c : Pc V) n ↔ n = s.fresh := by intro n; simp [right, c4]
    simp only [hr, busy, or_false]
    constructor
    · rw [htop]; exact A H.topAl
    · rw [htop, (old _ (nf H.topAl)).2.2.2.2.1]; exact H.topPar
    · rw [htop, (old _ (nf H.topAl)).2.2.2.2.2.1]; exact H.topRoot
    · rw [htop]; intro h
      rcases h with h | h
      · exact H.topO h
      · exact nf H.topAl h
    · rw [hroot]; exact A H.rootAl
    · rw [hroot, htop]; exact H.rootTop
    · intro n hn h0 i hi
      have e : n ≠ s.fresh := by intro e; rw [e, new.1] at h0; omega
      have hn := A' hn e
      rw [(old n e).1] at h0
      rw [(old n e).2.2.1] at hi ⊢
      obtain ⟨m1, m2, m3⟩ := H.kid n hn h0 i hi
      rw [(old _ (nf m1)).1, (old _ (nf m1)).2.2.2.2.1, (old n e).1]
      exact ⟨A m1, m2, m3⟩
    · intro n hn h0
      have e : n ≠ s.fresh := by intro e; rw [e, new.1] at h0; omega
      rw [(old n e).1] at h0
      rw [(old n e).2.2.1]
      exact H.inj n (A' hn e) h0
    · intro n hn
      by_cases e : n = s.fresh
      · rw [e, new.2.1]; simp [emptyArr]
      · rw [(old n e).2.2.1]; exact H.nk n (A' hn e)
    · intro n hn h0
      have e : n ≠ s.fresh := by intro e; rw [e, new.2.2.2.1] at h0; exact h0 rfl
      rw [(old n e).2.2.2.2.1] at h0 ⊢
      obtain ⟨m1, m2, m3⟩ := H.par n (A' hn e) h0
      rw [(old _ (nf m1)).1, (old _ (nf m1)).2.2.1]
      exact ⟨A m1, m2, m3⟩
    · intro n hn i
      by_cases e : n = s.fresh
      · left; rw [e, new.2.2.1]; rfl
      · rw [(old n e).2.2.2.1]
        rcases H.cells n (A' hn e) i with h | ⟨h, h'⟩
        · exact .inl h
        · right; rw [(old _ (nf h)).1, (old n e).1]; exact ⟨A h, h'⟩
    · intro n hn
      by_cases e : n = s.fresh
      · rw [e, new.2.2.2.2.1]
        rcases H.next l h2 with h | ⟨h, h'⟩
        · exact .inl h
        · right; rw [(old _ (nf h)).1]; exact ⟨A h, h'⟩
      · rw [(old n e).2.2.2.2.2.2.1]
        split
        · right; exact ⟨⟨hfr, by rw [hf]; omega⟩, new.1⟩
        · rcases H.next n (A' hn e) with h | ⟨h, h'⟩
          · exact .inl h
          · right; rw [(old _ (nf h)).1]; exact ⟨A h, h'⟩
    · intro n hn h0
      by_cases e : n = s.fresh
      · exact .inr (.inr e)
      · rw [(old n e).2.2.2.2.1] at h0
        rcases H.orph n (A' hn e) h0 with h | h
        · exact .inl h
        · exact .inr (.inl h)
    · intro n hn hb
      by_cases e : n = s.fresh
      · rw [e, new.2.1, new.2.2.1]
      · rw [(old n e).2.2.1, (old n e).2.2.2.1]; exact H.same n (A' hn e) hb
    · intro n hn
      rw [htop, (old _ (nf H.topAl)).1]
      by_cases e : n = s.fresh
      · rw [e, new.1]; omega
      · rw [(old n e).1]; exact H.low n (A' hn e)
    · intro n hn
      by_cases e : n = s.fresh
      · intro _; rw [e]; exact new.2.2.2.2.2.1
      · rw [(old n e).2.2.2.2.2.2.2.1, (old n e).2.2.2.2.2.2.2.2]
        split
        · intro _; rfl
        · exact H.spl n (A' hn e)
  · show CtxOk main s' c
    have hol : (s.node l).parent = 0 → l = s.top := by
      intro h0
      rcases H.orph l h2 h0 with h | h
      · exact h
      · have := (P.hO l h).2.1; rw [hl] at this; cases this
    refine ⟨?_, ?_, ?_, ?_, ?_, ?_, ?_, ?_, ?_, c7, ?_⟩
    · rw [c3]; exact A h2
    · rw [c4]; exact ⟨hfr, by rw [hf]; omega⟩
    · rw [c2]; exact A h1
    · rw [c3, c4]; exact hlf
    · rw [c3, c4, new.1, (old l hlf).1, h3]
    · rw [c4]; exact new.2.2.2.1
    · rw [c3, (old l hlf).2.2.2.2.2.2.2.2, if_pos rfl]
    · rw [c4]; exact new.2.2.2.2.2.2
    · rw [htop, c5, c6, c3]
      cases main with
      | true =>
        simp only [if_true, Bool.true_and]
        have rt := H.rootTop rfl
        constructor
        · cases hrf : (s.node l).rootf with
          | false => rfl
          | true =>
            by_cases h0 : (s.node l).parent = 0
            · rw [rt, hol h0]; simp
            · simp [h0]
        · intro e
          rw [rt, e, H.topRoot]; simp
      | false =>
        simp only [Bool.false_and, Bool.not_false, Bool.and_true]
        refine ⟨trivial, ?_⟩
        intro e
        rw [e, H.topRoot, H.topPar]; rfl
    · rw [c1]; exact h4

/-- A new root. -/
theorem Post.grow {c : Ctx V} (P : Pre main s (.par c) O B) (h0 : (s.node c.l).parent = 0) :
    Post main s (.par c) O B (newRoot main s c) (.climb c.o c.r) := by
  have h1 : CtxOk main s c := P.ok
  have H := P.H
  simp only [right, busy, or_false] at H
  have hOl : ¬ O c.l := fun hb => (P.hO _ hb).2.2 (by simp [holds])
  have hOy : ¬ O c.y := fun hb => (P.hO _ hb).2.2 (by simp [holds])
  have hBl : ¬ B c.l := fun hb => (P.hB _ hb).2.2 (by simp [holds])
  have hBy : ¬ B c.y := fun hb => (P.hB _ hb).2.2 (by simp [holds])
  have htl : c.l = s.top := by
    rcases H.orph c.l h1.al h0 with h | h | h
    · exact h
    · exact absurd h hOl
    · exact absurd h h1.ne
  have hne := h1.ne
  have hlf : c.l ≠ s.fresh := by have := h1.al.2; omega
  have hyf : c.y ≠ s.fresh := by have := h1.ay.2; omega
  have hfr : 0 < s.fresh := by have := h1.al.2; omega
  have sl := H.same c.l h1.al hBl
  have sy := H.same c.y h1.ay hBy
  let s' := newRoot main s c
  have hf : s'.fresh = s.fresh + 1 := rfl
  have htop : s'.top = s.fresh := rfl
  have hroot : s'.root = if main then s.fresh else s.root := rfl
  have old : ∀ n, n ≠ s.fresh → (s'.node n).ht = (s.node n).ht ∧ (s'.node n).lo = (s.node n).lo ∧
      (s'.node n).base = (s.node n).base ∧ (s'.node n).arr = (s.node n).arr ∧ (s'.node n).next = (s.node n).next ∧
      (s'.node n).parent = (if n = c.l ∨ n = c.y then s.fresh else (s.node n).parent) ∧
      (s'.node n).locked = (if n = c.l ∨ n = c.y then false else (s.node n).locked) ∧
      (s'.node n).splitting = (if n = c.l ∨ n = c.y then false else (s.node n).splitting) := by
    intro n hn
    simp only [s', newRoot, mod_node, upd, if_neg hn, if_neg hlf, if_neg hyf]
    by_cases e : n = c.l <;> by_cases e2 : n = c.y <;> simp_all
  have new : (s'.node s.fresh).ht = (s.node c.l).ht + 1 ∧ (s'.node s.fresh).base = rootArr c.l c.y c.sep ∧
      (s'.node s.fresh).arr = rootArr c.l c.y c.sep ∧ (s'.node s.fresh).parent = 0 ∧ (s'.node s.fresh).next = 0 ∧
      (s'.node s.fresh).locked = false ∧ (s'.node s.fresh).splitting = false ∧ (s'.node s.fresh).rootf = true := by
    simp only [s', newRoot, mod_node, upd, if_neg hlf.symm, if_neg hyf.symm]
    simp
  have nf : ∀ {n}, Al s n → n ≠ s.fresh := by intro n h; have := h.2; omega
  have A : ∀ {n}, Al s n → Al s' n := fun h => ⟨h.1, by rw [hf]; have := h.2; omega⟩
  have A' : ∀ {n}, Al s' n → n ≠ s.fresh → Al s n := fun h hn => ⟨h.1, by have := h.2; rw [hf] at this; omega⟩
  have nA : Al s' s.fresh := ⟨hfr, by rw [hf]; omega⟩
  have nky : ∀ n, Al s n → 0 < (s.node n).ht → ∀ i, i ≤ (s.node n).base.nkeys →
      (s.node n).base.child i ≠ c.l ∧ (s.node n).base.child i ≠ c.y := by
    intro n hn hp i hi
    obtain ⟨m1, m2, m3⟩ := H.kid n hn hp i hi
    constructor
    · intro e; rw [e, h0] at m2; have := hn.1; omega
    · intro e; rw [e, h1.py] at m2; have := hn.1; omega
  have ra0 : (rootArr c.l c.y c.sep).child 0 = c.l := by simp [rootArr, upd]
  have ra1 : (rootArr c.l c.y c.sep).child 1 = c.y := by simp [rootArr, upd]
  have ran : (rootArr c.l c.y c.sep).nkeys = 1 := rfl
  have rac : ∀ i, (rootArr c.l c.y c.sep).child i = if i = 1 then c.y else if i = 0 then c.l else 0 := by
    intro i; simp [rootArr, upd]
  show Post main s (.par c) O B s' (.climb c.o c.r)
  refine ⟨⟨by rw [hf]; omega, fun n hn => (old n (nf hn)).1, fun n hn => (old n (nf hn)).2.1, ?_, ?_, .inr (by rw [htop]; omega), ?_, ?_⟩, ?_, ?_⟩
  · intro n hn hn' _
    obtain ⟨g1, g2, g3, g4, g5, g6, g7, g8⟩ := old n (nf hn)
    have : ¬ (n = c.l ∨ n = c.y) := by simpa [holds] using hn'
    rw [g3, g4, g7, g8, if_neg this, if_neg this]
    exact ⟨rfl, rfl, rfl, rfl⟩
  · intro n hn
    by_cases e : n = c.l ∨ n = c.y
    · right; right; simpa [holds] using e
    · left; rw [(old n (nf hn)).2.2.2.2.2.1, if_neg e]
  · intro n hn; simp [holds] at hn
  · intro n hn hk
    by_cases e : n = s.fresh
    · rw [e, new.2.2.2.2.2.1] at hk; cases hk
    · rw [(old n e).2.2.2.2.2.2.1] at hk
      split at hk
      · cases hk
      · rename_i h; exact .inr ⟨A' hn e, hk, by simpa [holds] using h⟩
  · simp only [right, busy, or_false]
    constructor
    · rw [htop]; exact nA
    · rw [htop]; exact new.2.2.2.1
    · rw [htop]; exact new.2.2.2.2.2.2.2
    · rw [htop]; intro h; exact nf (P.hO _ h).1 rfl
    · rw [hroot]; split
      · exact nA
      · exact A H.rootAl
    · intro hm; rw [hroot, htop, hm]; rfl
    · intro n hn hp i hi
      by_cases e : n = s.fresh
      · rw [e] at hi ⊢
        rw [new.2.1, ran] at hi
        rw [new.2.1, new.1]
        have hi' : i = 0 ∨ i = 1 := by omega
        rcases hi' with h | h
        · rw [h, ra0, (old _ hlf).2.2.2.2.2.1, (old _ hlf).1, if_pos (.inl rfl)]
          exact ⟨A h1.al, rfl, rfl⟩
        · rw [h, ra1, (old _ hyf).2.2.2.2.2.1, (old _ hyf).1, if_pos (.inr rfl), h1.ht]
          exact ⟨A h1.ay, rfl, rfl⟩
      · have hn := A' hn e
        rw [(old n e).1] at hp
        rw [(old n e).2.2.1] at hi ⊢
        obtain ⟨m1, m2, m3⟩ := H.kid n hn hp i hi
        obtain ⟨k1, k2⟩ := nky n hn hp i hi
        rw [(old _ (nf m1)).1, (old _ (nf m1)).2.2.2.2.2.1, (old n e).1, if_neg (by simp [k1, k2])]
        exact ⟨A m1, m2, m3⟩
    · intro n hn hp i j hi hj h
      by_cases e : n = s.fresh
      · rw [e, new.2.1] at hi hj h
        rw [ran] at hi hj
        have hi' : i = 0 ∨ i = 1 := by omega
        have hj' : j = 0 ∨ j = 1 := by omega
        rcases hi' with a | a <;> rcases hj' with b | b <;> rw [a, b] at h ⊢
        · rw [ra0, ra1] at h; exact absurd h hne
        · rw [ra0, ra1] at h; exact absurd h.symm hne
      · rw [(old n e).1] at hp
        rw [(old n e).2.2.1] at hi hj h
        exact H.inj n (A' hn e) hp i j hi hj h
    · intro n hn
      by_cases e : n = s.fresh
      · rw [e, new.2.1, ran]; decide
      · rw [(old n e).2.2.1]; exact H.nk n (A' hn e)
    · intro n hn hp
      have e : n ≠ s.fresh := by intro e; rw [e, new.2.2.2.1] at hp; exact hp rfl
      rw [(old n e).2.2.2.2.2.1] at hp ⊢
      by_cases e2 : n = c.l ∨ n = c.y
      · rw [if_pos e2, new.1, new.2.1, ran]
        refine ⟨nA, by omega, ?_⟩
        rcases e2 with h | h
        · exact ⟨0, by omega, by rw [ra0, h]⟩
        · exact ⟨1, by omega, by rw [ra1, h]⟩
      · rw [if_neg e2] at hp ⊢
        obtain ⟨m1, m2, m3⟩ := H.par n (A' hn e) hp
        rw [(old _ (nf m1)).1, (old _ (nf m1)).2.2.1]
        exact ⟨A m1, m2, m3⟩
    · intro n hn i
      by_cases e : n = s.fresh
      · rw [e, new.2.2.1, new.1, rac]
        split
        · right; rw [(old _ hyf).1, h1.ht]; exact ⟨A h1.ay, rfl⟩
        · split
          · right; rw [(old _ hlf).1]; exact ⟨A h1.al, rfl⟩
          · exact .inl rfl
      · rw [(old n e).2.2.2.1]
        rcases H.cells n (A' hn e) i with h | ⟨h, h'⟩
        · exact .inl h
        · right; rw [(old _ (nf h)).1, (old n e).1]; exact ⟨A h, h'⟩
    · intro n hn
      by_cases e : n = s.fresh
      · rw [e, new.2.2.2.2.1]; exact .inl rfl
      · rw [(old n e).2.2.2.2.1]
        rcases H.next n (A' hn e) with h | ⟨h, h'⟩
        · exact .inl h
        · right; rw [(old _ (nf h)).1]; exact ⟨A h, h'⟩
    · intro n hn hp
      by_cases e : n = s.fresh
      · exact .inl e
      · rw [(old n e).2.2.2.2.2.1] at hp
        split at hp
        · omega
        · rename_i h
          rcases H.orph n (A' hn e) hp with g | g | g
          · rw [← htl] at g; exact absurd (.inl g) h
          · exact .inr g
          · exact absurd (.inr g) h
    · intro n hn hb
      by_cases e : n = s.fresh
      · rw [e, new.2.1, new.2.2.1]
      · rw [(old n e).2.2.1, (old n e).2.2.2.1]; exact H.same n (A' hn e) hb
    · intro n hn
      rw [htop, new.1]
      by_cases e : n = s.fresh
      · rw [e, new.1]; exact Nat.le_refl _
      · rw [(old n e).1, htl]
        have := H.low n (A' hn e); omega
    · intro n hn
      by_cases e : n = s.fresh
      · rw [e, new.2.2.2.2.2.2.1]; intro h; cases h
      · rw [(old n e).2.2.2.2.2.2.1, (old n e).2.2.2.2.2.2.2]
        split
        · intro h; cases h
        · exact H.spl n (A' hn e)
  · exact A h1.ar

end

end Verif.Index
