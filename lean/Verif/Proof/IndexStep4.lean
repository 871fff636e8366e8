import Verif.Proof.IndexStep3
set_option linter.unusedSimpArgs false
set_option linter.unusedVariables false
/-! Split of an internode. -/
namespace Verif.Index
open Verif.Internode
variable {V : Type}

theorem setParents_fresh (s : Heap V) (a : Arr Nat) (q : Nat) : ∀ k, (setParents s a q k).fresh = s.fresh ∧
    (setParents s a q k).root = s.root ∧ (setParents s a q k).top = s.top
  | 0 => ⟨rfl, rfl, rfl⟩
  | k + 1 => setParents_fresh s a q k

open Classical in
theorem setParents_node (s : Heap V) (a : Arr Nat) (q m : Nat) : ∀ k, (setParents s a q k).node m =
    if ∃ i, i < k ∧ a.child i = m then { s.node m with parent := q } else s.node m
  | 0 => by rw [if_neg (by rintro ⟨i, h, _⟩; omega)]; rfl
  | k + 1 => by
    simp only [setParents, mod_node]
    rw [setParents_node s a q m k]
    by_cases e : m = a.child k
    · rw [if_pos e, if_pos ⟨k, by omega, e.symm⟩, setParents_node s a q (a.child k) k, ← e]
      split <;> rfl
    · rw [if_neg e]
      by_cases c : ∃ i, i < k ∧ a.child i = m
      · rw [if_pos c, if_pos]
        obtain ⟨i, h1, h2⟩ := c; exact ⟨i, by omega, h2⟩
      · rw [if_neg c, if_neg]
        rintro ⟨i, h1, h2⟩
        by_cases e2 : i = k
        · subst e2; exact e h2.symm
        · exact c ⟨i, by omega, h2⟩

section
variable {main : Bool} {s : Heap V} {O B : Nat → Prop}

open Classical in
/-- The heap after the split of a full internode. -/
theorem splitInode_spec {c : Ctx V} {p idx : Nat} (H : HInv main s O B) (h1 : CtxOk main s c) (h2 : Al s p)
    (h3 : (s.node p).ht = (s.node c.l).ht + 1) (hlk : (s.node p).locked = true)
    (hfull : (s.node p).arr.nkeys = inodeWidth) (hidx : idx ≤ inodeWidth) (hbp : (s.node p).arr = (s.node p).base)
    (hl : (s.node p).arr.child idx = c.l) (sl : (s.node c.l).arr = (s.node c.l).base) (sy : (s.node c.y).arr = (s.node c.y).base) :
    let s' := (splitInode s c p idx).1
    let x := splitInto inodeWidth (s.node p).arr emptyArr idx c.sep c.y
    s'.fresh = s.fresh + 1 ∧ s'.root = s.root ∧ s'.top = s.top ∧
    (∀ n, n ≠ s.fresh → (s'.node n).ht = (s.node n).ht ∧ (s'.node n).lo = (s.node n).lo ∧
      (s'.node n).base = (if n = p then x.1 else (s.node n).base) ∧ (s'.node n).arr = (if n = p then x.1 else (s.node n).arr) ∧
      (s'.node n).next = (s.node n).next ∧ (s'.node n).ents = (s.node n).ents ∧
      (s'.node n).parent = (if ∃ i, i ≤ x.2.1.nkeys ∧ x.2.1.child i = n then s.fresh else if n = c.y then p else (s.node n).parent) ∧
      (s'.node n).locked = (if n = c.l ∨ n = c.y then false else (s.node n).locked) ∧
      (s'.node n).splitting = (if n = c.l ∨ n = c.y then false else if n = p then true else (s.node n).splitting) ∧
      (n ≠ c.l → n ≠ c.y → (s'.node n).rootf = (s.node n).rootf ∧ (s'.node n).vs = (s.node n).vs ∧ (s'.node n).vi = (s.node n).vi)) ∧
    ((s'.node s.fresh).ht = (s.node p).ht ∧ (s'.node s.fresh).lo = x.2.2.1 ∧ (s'.node s.fresh).base = x.2.1 ∧
      (s'.node s.fresh).arr = x.2.1 ∧ (s'.node s.fresh).parent = 0 ∧ (s'.node s.fresh).next = 0 ∧ (s'.node s.fresh).ents = [] ∧
      (s'.node s.fresh).locked = true ∧ (s'.node s.fresh).splitting = true) := by
  intro s' x
  have hne := h1.ne
  have hlp : c.l ≠ p := by intro e; rw [← e] at h3; omega
  have hyp : c.y ≠ p := by intro e; have := h1.ht; rw [e] at this; omega
  have hlf : c.l ≠ s.fresh := by have := h1.al.2; omega
  have hyf : c.y ≠ s.fresh := by have := h1.ay.2; omega
  have hpf : p ≠ s.fresh := by have := h2.2; omega
  obtain ⟨x1, x2, x3, x4, x5, x6, x7, x8⟩ := split_spec inodeWidth (s.node p).arr emptyArr idx c.sep c.y (by decide) hfull hidx
  have hmid : (inodeWidth + 1) / 2 = 8 := rfl
  have hW : inodeWidth = 15 := rfl
  -- the new child is on the right iff it does not go left
  have kid := H.kid p h2 (by omega)
  rw [← hbp] at kid
  have hyk : ∀ i, i ≤ (s.node p).arr.nkeys → (s.node p).arr.child i ≠ c.y := by
    intro i hi e
    have := (kid i hi).2.1
    rw [e, h1.py] at this
    have := h2.1; omega
  have hinj := H.inj p h2 (by omega)
  rw [← hbp] at hinj
  have hy : (∃ i, i ≤ x.2.1.nkeys ∧ x.2.1.child i = c.y) ↔ x.2.2.2 = false := by
    have : x.2.2.2 = false ↔ ¬ idx < (inodeWidth + 1) / 2 := by
      rw [← x8]; simp [x]
    rw [this, x2]
    constructor
    · rintro ⟨i, i1, i2⟩ hlt
      rw [x7 i i1] at i2
      have := vchild_inj (p := idx) (y := c.y) (by rw [hfull]; exact hidx) hinj hyk (i := (inodeWidth + 1) / 2 + 1 + i) (j := idx + 1)
        (by rw [hfull]; omega) (by rw [hfull]; omega) (by rw [i2, vchild_new])
      omega
    · intro h
      refine ⟨idx - (inodeWidth + 1) / 2, by omega, ?_⟩
      rw [x7 _ (by omega)]
      have : (inodeWidth + 1) / 2 + 1 + (idx - (inodeWidth + 1) / 2) = idx + 1 := by omega
      rw [this, vchild_new]
  have x2' : x.2.1.nkeys = inodeWidth - (inodeWidth + 1) / 2 := x2
  have hq : ¬ ∃ i, i < x.2.1.nkeys + 1 ∧ x.2.1.child i = s.fresh := by
    rintro ⟨i, i1, i2⟩
    rw [x7 i (by omega)] at i2
    rcases vchild_cases _ idx c.y ((inodeWidth + 1) / 2 + 1 + i) (by rw [hfull]; exact hidx) (by rw [hfull]; omega) with ⟨_, g⟩ | ⟨k, k1, k2, _⟩
    · rw [g] at i2; exact hyf i2
    · rw [k2] at i2
      have := (kid k k1).1.2; omega
  have hp : ¬ ∃ i, i < x.2.1.nkeys + 1 ∧ x.2.1.child i = p := by
    rintro ⟨i, i1, i2⟩
    rw [x7 i (by omega)] at i2
    rcases vchild_cases _ idx c.y ((inodeWidth + 1) / 2 + 1 + i) (by rw [hfull]; exact hidx) (by rw [hfull]; omega) with ⟨_, g⟩ | ⟨k, k1, k2, _⟩
    · rw [g] at i2; exact hyp i2
    · rw [k2] at i2
      have := (kid k k1).2.2; rw [i2] at this; omega
  have lt : ∀ n, (∃ i, i < x.2.1.nkeys + 1 ∧ x.2.1.child i = n) ↔ ∃ i, i ≤ x.2.1.nkeys ∧ x.2.1.child i = n := by
    intro n
    constructor
    · rintro ⟨i, h, h'⟩; exact ⟨i, by omega, h'⟩
    · rintro ⟨i, h, h'⟩; exact ⟨i, by omega, h'⟩
  have X : splitInto inodeWidth (s.node p).arr emptyArr idx c.sep c.y = x := rfl
  refine ⟨?_, ?_, ?_, ?_, ?_⟩
  · simp only [s', splitInode, X, mod_fresh, (setParents_fresh _ _ _ _).1]
  · simp only [s', splitInode, X, mod_root, (setParents_fresh _ _ _ _).2.1]
  · simp only [s', splitInode, X, mod_top, (setParents_fresh _ _ _ _).2.2]
  · intro n hn
    simp only [s', splitInode, X, mod_node, setParents_node, lt, hy, if_neg hn, if_neg hlf, if_neg hyf, upd]
    by_cases e1 : n = c.l
    · subst e1
      by_cases e3 : ∃ i, i ≤ x.2.1.nkeys ∧ x.2.1.child i = c.l <;> simp [e3, hne, hlp, h1.sl, sl]
    · by_cases e2 : n = c.y
      · subst e2
        cases e4 : x.2.2.2 <;> simp [e4, hy, hne, hne.symm, hyp, hyf, h1.sy, sy]
      · by_cases e3 : n = p
        · subst e3
          have : ¬ ∃ i, i ≤ x.2.1.nkeys ∧ x.2.1.child i = n := by rw [← lt]; exact hp
          simp [this, e1, e2, hn]
        · by_cases e4 : ∃ i, i ≤ x.2.1.nkeys ∧ x.2.1.child i = n <;> simp [e1, e2, e3, e4, hn]
  · have : ¬ ∃ i, i ≤ x.2.1.nkeys ∧ x.2.1.child i = s.fresh := by rw [← lt]; exact hq
    simp only [s', splitInode, X, mod_node, setParents_node, lt, if_neg hlf.symm, if_neg hyf.symm, if_neg this, upd]
    simp

/-- Split of the parent. -/
theorem Post.inode {c : Ctx V} {p idx : Nat} (P : Pre main s (.rechk c p) O B) (hpl : (s.node c.l).parent = p)
    (hc : findChild (s.node p).arr c.l 0 ((s.node p).arr.nkeys + 1) = some idx) (hfull : ¬ (s.node p).arr.nkeys < inodeWidth) (d : Ctx V)
    (d1 : d.o = c.o) (d2 : d.r = c.r) (d3 : d.l = p) (d4 : d.y = s.fresh) (d5 : d.main = (main && s.root == p))
    (d6 : d.layer = (!(main && s.root == p) && (s.node p).parent == 0 && (s.node p).rootf)) (d7 : d.stale = 0) :
    Post main s (.rechk c p) O B (splitInode s c p idx).1 (.par d) := by
  classical
  obtain ⟨h1, h2, h3, hs⟩ := P.ok
  have H := P.H
  simp only [right, busy, or_false] at H
  have hBp : ¬ B p := fun hb => (P.hB _ hb).2.2 (by simp [holds])
  have hBl : ¬ B c.l := fun hb => (P.hB _ hb).2.2 (by simp [holds])
  have hBy : ¬ B c.y := fun hb => (P.hB _ hb).2.2 (by simp [holds])
  have hOp : ¬ O p := fun hb => (P.hO _ hb).2.2 (by simp [holds])
  have hbp := H.same p h2 hBp
  have sl := H.same c.l h1.al hBl
  have sy := H.same c.y h1.ay hBy
  have hlk := (P.K p (by simp [holds])).2
  obtain ⟨_, i2, i3⟩ := findChild_some hc
  have hnk := H.nk p h2
  rw [← hbp] at hnk
  have hful : (s.node p).arr.nkeys = inodeWidth := by omega
  have hidx : idx ≤ inodeWidth := by omega
  have hne := h1.ne
  have hlp : c.l ≠ p := by intro e; rw [← e] at h3; omega
  have hyp : c.y ≠ p := by intro e; have := h1.ht; rw [e] at this; omega
  have hlf : c.l ≠ s.fresh := by have := h1.al.2; omega
  have hyf : c.y ≠ s.fresh := by have := h1.ay.2; omega
  have hpf : p ≠ s.fresh := by have := h2.2; omega
  have hfr : 0 < s.fresh := by have := h1.al.2; omega
  obtain ⟨x1, x2, x3, x4, x5, x6, x7, x8⟩ := split_spec inodeWidth (s.node p).arr emptyArr idx c.sep c.y (by decide) hful hidx
  obtain ⟨hf, hroot, htop, old, new⟩ := splitInode_spec H h1 h2 h3 hlk hful hidx hbp i3 sl sy
  generalize hS : (splitInode s c p idx).1 = s' at *
  generalize hX : splitInto inodeWidth (s.node p).arr emptyArr idx c.sep c.y = x at *
  have hmid : (inodeWidth + 1) / 2 = 8 := rfl
  have hW : inodeWidth = 15 := rfl
  rw [hmid] at x1 x2 x3 x4 x5 x6 x7 x8
  rw [hW] at x2 x6 x7 hful hidx
  have kid := H.kid p h2 (by omega)
  rw [← hbp] at kid
  have hinj := H.inj p h2 (by omega)
  rw [← hbp] at hinj
  have hyk : ∀ i, i ≤ (s.node p).arr.nkeys → (s.node p).arr.child i ≠ c.y := by
    intro i hi e
    have := (kid i hi).2.1
    rw [e, h1.py] at this
    have := h2.1; omega
  have hidx' : idx ≤ (s.node p).arr.nkeys := by omega
  have nf : ∀ {n}, Al s n → n ≠ s.fresh := by intro n h; have := h.2; omega
  have A : ∀ {n}, Al s n → Al s' n := fun h => ⟨h.1, by rw [hf]; have := h.2; omega⟩
  have A' : ∀ {n}, Al s' n → n ≠ s.fresh → Al s n := fun h hn => ⟨h.1, by have := h.2; rw [hf] at this; omega⟩
  have nA : Al s' s.fresh := ⟨hfr, by rw [hf]; omega⟩
  -- the virtual children
  have vc : ∀ j, j ≤ 16 → Al s (vchild (s.node p).arr idx c.y j) ∧ (s.node (vchild (s.node p).arr idx c.y j)).ht + 1 = (s.node p).ht ∧
      (vchild (s.node p).arr idx c.y j = c.y ∨ (s.node (vchild (s.node p).arr idx c.y j)).parent = p) := by
    intro j hj
    rcases vchild_cases _ idx c.y j hidx' (by omega) with ⟨_, g⟩ | ⟨k, k1, k2, _⟩
    · rw [g]; exact ⟨h1.ay, by rw [h1.ht, h3], .inl rfl⟩
    · rw [k2]
      obtain ⟨m1, m2, m3⟩ := kid k k1
      exact ⟨m1, m3, .inr m2⟩
  have vi : ∀ i j, i ≤ 16 → j ≤ 16 → vchild (s.node p).arr idx c.y i = vchild (s.node p).arr idx c.y j → i = j :=
    fun i j a b h => vchild_inj hidx' hinj hyk (by omega) (by omega) h
  have inR : ∀ n, (∃ i, i ≤ x.2.1.nkeys ∧ x.2.1.child i = n) → n = c.y ∨ (s.node n).parent = p := by
    rintro n ⟨i, a1, a2⟩
    rw [x7 i (by omega)] at a2
    rw [← a2]
    exact (vc _ (by omega)).2.2
  have tl : s.top ≠ c.l := by intro e; have := H.topPar; rw [e, hpl] at this; have := h2.1; omega
  have ty : s.top ≠ c.y := by intro e; exact H.topO (.inr e)
  have tR : ¬ ∃ i, i ≤ x.2.1.nkeys ∧ x.2.1.child i = s.top := by
    intro h
    rcases inR _ h with h | h
    · exact ty h
    · rw [H.topPar] at h; have := h2.1; omega
  have hst : ∀ n, n ∉ holds (.rechk c p : Pc V) → n ≠ c.l ∧ n ≠ c.y ∧ n ≠ p := by
    intro n hn; simpa [holds] using hn
  refine ⟨⟨by rw [hf]; omega, fun n hn => (old n (nf hn)).1, fun n hn => (old n (nf hn)).2.1, ?_, ?_, .inl htop, ?_, ?_⟩, ?_, ?_⟩
  · intro n hn hn' _
    obtain ⟨a1, a2, a3⟩ := hst n hn'
    obtain ⟨g1, g2, g3, g4, g5, g6, g7, g8, g9, g10⟩ := old n (nf hn)
    rw [g3, g4, g8, g9, if_neg a3, if_neg a3, if_neg (by simp [a1, a2]), if_neg (by simp [a1, a2]), if_neg a3]
    exact ⟨rfl, rfl, rfl, rfl⟩
  · intro n hn
    rw [(old n (nf hn)).2.2.2.2.2.2.1]
    by_cases e : ∃ i, i ≤ x.2.1.nkeys ∧ x.2.1.child i = n
    · right
      rcases inR n e with h | h
      · right; simp [holds, h]
      · left; simp [holds, h]
    · rw [if_neg e]
      by_cases e2 : n = c.y
      · right; right; simp [holds, e2]
      · left; rw [if_neg e2]
  · intro n hn
    simp only [holds, List.mem_cons, List.not_mem_nil, or_false, d3, d4] at hn
    rcases hn with e | e
    · rw [e]
      refine ⟨A h2, ?_, .inl (by simp [holds])⟩
      rw [(old p hpf).2.2.2.2.2.2.2.1, if_neg (by simp [hlp.symm, hyp.symm])]; exact hlk
    · rw [e]
      exact ⟨nA, new.2.2.2.2.2.2.2.1, .inr (fun h => nf h.1 rfl)⟩
  · intro n hn hk
    by_cases e : n = s.fresh
    · left; simp [holds, e, d4]
    · by_cases e2 : n = p
      · left; simp [holds, e2, d3]
      · right
        rw [(old n e).2.2.2.2.2.2.2.1] at hk
        split at hk
        · cases hk
        · rename_i h
          refine ⟨A' hn e, hk, ?_⟩
          simp only [holds, List.mem_cons, List.not_mem_nil, or_false]
          intro g
          rcases g with g | g | g
          · exact h (.inl g)
          · exact h (.inr g)
          · exact e2 g
  · have hr : ∀ n, right (.par d : Pc V) n ↔ n = s.fresh := by intro n; simp [right, d4]
    simp only [hr, busy, or_false]
    constructor
    · rw [htop]; exact A H.topAl
    · rw [htop, (old _ (nf H.topAl)).2.2.2.2.2.2.1, if_neg tR, if_neg ty]; exact H.topPar
    · rw [htop, ((old _ (nf H.topAl)).2.2.2.2.2.2.2.2.2 tl ty).1]; exact H.topRoot
    · rw [htop]; intro h
      rcases h with h | h
      · exact H.topO (.inl h)
      · exact nf H.topAl h
    · rw [hroot]; exact A H.rootAl
    · rw [hroot, htop]; exact H.rootTop
    · intro n hn h0 i hi
      by_cases e : n = s.fresh
      · rw [e] at hi ⊢
        rw [new.2.2.1] at hi ⊢
        rw [new.1]
        have hc' := x7 i (by omega)
        obtain ⟨v1, v2, v3⟩ := vc (8 + 1 + i) (by omega)
        rw [← hc'] at v1 v2 v3
        rw [(old _ (nf v1)).1, (old _ (nf v1)).2.2.2.2.2.2.1, if_pos ⟨i, hi, rfl⟩]
        exact ⟨A v1, rfl, v2⟩
      · have hn := A' hn e
        rw [(old n e).1] at h0
        by_cases e2 : n = p
        · rw [e2] at hi ⊢
          rw [(old p hpf).2.2.1, if_pos rfl] at hi ⊢
          have hc' := x4 i (by omega)
          obtain ⟨v1, v2, v3⟩ := vc i (by omega)
          have hnr : ¬ ∃ k, k ≤ x.2.1.nkeys ∧ x.2.1.child k = x.1.child i := by
            rintro ⟨k, k1, k2⟩
            rw [x7 k (by omega), hc'] at k2
            have := vi _ _ (by omega) (by omega) k2
            omega
          rw [← hc'] at v1 v2 v3
          rw [(old _ (nf v1)).1, (old _ (nf v1)).2.2.2.2.2.2.1, if_neg hnr, (old p hpf).1]
          refine ⟨A v1, ?_, v2⟩
          split
          · rfl
          · rename_i ny
            rcases v3 with h | h
            · exact absurd h ny
            · exact h
        · rw [(old n e).2.2.1, if_neg e2] at hi ⊢
          obtain ⟨m1, m2, m3⟩ := H.kid n hn h0 i hi
          have ny : (s.node n).base.child i ≠ c.y := by intro g; rw [g, h1.py] at m2; have := hn.1; omega
          rw [(old _ (nf m1)).1, (old _ (nf m1)).2.2.2.2.2.2.1, (old n e).1, if_neg, if_neg ny]
          · exact ⟨A m1, m2, m3⟩
          · intro g
            rcases inR _ g with g | g
            · exact ny g
            · rw [m2] at g; exact e2 g
    · intro n hn h0 i j hi hj h
      by_cases e : n = s.fresh
      · rw [e, new.2.2.1] at hi hj h
        rw [x7 i (by omega), x7 j (by omega)] at h
        have := vi _ _ (by omega) (by omega) h
        omega
      · rw [(old n e).1] at h0
        by_cases e2 : n = p
        · rw [e2, (old p hpf).2.2.1, if_pos rfl] at hi hj h
          rw [x4 i (by omega), x4 j (by omega)] at h
          exact vi _ _ (by omega) (by omega) h
        · rw [(old n e).2.2.1, if_neg e2] at hi hj h
          exact H.inj n (A' hn e) h0 i j hi hj h
    · intro n hn
      by_cases e : n = s.fresh
      · rw [e, new.2.2.1, x2]; omega
      · rw [(old n e).2.2.1]
        split
        · rw [x1]; omega
        · exact H.nk n (A' hn e)
    · intro n hn h0
      have e : n ≠ s.fresh := by intro e; rw [e, new.2.2.2.2.1] at h0; exact h0 rfl
      have hn := A' hn e
      rw [(old n e).2.2.2.2.2.2.1] at h0 ⊢
      by_cases e1 : ∃ i, i ≤ x.2.1.nkeys ∧ x.2.1.child i = n
      · rw [if_pos e1, new.1, new.2.2.1]
        exact ⟨nA, by omega, e1⟩
      · rw [if_neg e1] at h0 ⊢
        -- a child of `p` that is not on the right is on the left
        have left : ∀ j, j ≤ 16 → vchild (s.node p).arr idx c.y j = n → ∃ i, i ≤ x.1.nkeys ∧ x.1.child i = n := by
          intro j hj g
          by_cases c8 : j ≤ 8
          · exact ⟨j, by omega, by rw [x4 j c8, g]⟩
          · exfalso; apply e1
            refine ⟨j - 9, by omega, ?_⟩
            rw [x7 _ (by omega)]
            have : 8 + 1 + (j - 9) = j := by omega
            rw [this, g]
        by_cases e2 : n = c.y
        · rw [if_pos e2, (old p hpf).1, (old p hpf).2.2.1, if_pos rfl]
          refine ⟨A h2, by omega, left (idx + 1) (by omega) ?_⟩
          rw [vchild_new, e2]
        · rw [if_neg e2] at h0 ⊢
          obtain ⟨m1, m2, k, m3, m4⟩ := H.par n hn h0
          rw [(old _ (nf m1)).1, (old _ (nf m1)).2.2.1]
          refine ⟨A m1, m2, ?_⟩
          by_cases e3 : (s.node n).parent = p
          · rw [if_pos e3]
            rw [e3, ← hbp] at m3 m4
            obtain ⟨j, j1, j2⟩ := vchild_old (s.node p).arr idx c.y k m3
            exact left j (by omega) (by rw [j2, m4])
          · rw [if_neg e3]; exact ⟨k, m3, m4⟩
    · have hcp : ∀ i, (s.node p).arr.child i = 0 ∨ Al s ((s.node p).arr.child i) ∧ (s.node ((s.node p).arr.child i)).ht + 1 = (s.node p).ht :=
        H.cells p h2
      have key := split_cells (P := fun z => z = 0 ∨ Al s z ∧ (s.node z).ht + 1 = (s.node p).ht) (W := inodeWidth)
        (a := (s.node p).arr) (r := emptyArr) (p := idx) (k := c.sep) (c := c.y) hcp (fun _ => .inl rfl) (.inr ⟨h1.ay, by rw [h1.ht, h3]⟩)
      rw [hX] at key
      intro n hn i
      by_cases e : n = s.fresh
      · rw [e, new.2.2.2.1, new.1]
        rcases key.2 i with h | ⟨h, h'⟩
        · exact .inl h
        · right; rw [(old _ (nf h)).1]; exact ⟨A h, h'⟩
      · rw [(old n e).2.2.2.1, (old n e).1]
        by_cases e2 : n = p
        · rw [if_pos e2, e2]
          rcases key.1 i with h | ⟨h, h'⟩
          · exact .inl h
          · right; rw [(old _ (nf h)).1]; exact ⟨A h, h'⟩
        · rw [if_neg e2]
          rcases H.cells n (A' hn e) i with h | ⟨h, h'⟩
          · exact .inl h
          · right; rw [(old _ (nf h)).1]; exact ⟨A h, h'⟩
    · intro n hn
      by_cases e : n = s.fresh
      · rw [e, new.2.2.2.2.2.1]; exact .inl rfl
      · rw [(old n e).2.2.2.2.1]
        rcases H.next n (A' hn e) with h | ⟨h, h'⟩
        · exact .inl h
        · right; rw [(old _ (nf h)).1]; exact ⟨A h, h'⟩
    · intro n hn h0
      by_cases e : n = s.fresh
      · exact .inr (.inr e)
      · rw [htop]
        rw [(old n e).2.2.2.2.2.2.1] at h0
        split at h0
        · omega
        · split at h0
          · have := h2.1; omega
          · rename_i ny
            rcases H.orph n (A' hn e) h0 with h | h | h
            · exact .inl h
            · exact .inr (.inl h)
            · exact absurd h ny
    · intro n hn hb
      by_cases e : n = s.fresh
      · rw [e, new.2.2.1, new.2.2.2.1]
      · rw [(old n e).2.2.1, (old n e).2.2.2.1]
        split
        · rfl
        · exact H.same n (A' hn e) hb
    · intro n hn
      rw [htop, (old _ (nf H.topAl)).1]
      by_cases e : n = s.fresh
      · rw [e, new.1]; exact H.low p h2
      · rw [(old n e).1]; exact H.low n (A' hn e)
    · intro n hn
      by_cases e : n = s.fresh
      · intro _; rw [e]; exact new.2.2.2.2.2.2.2.1
      · rw [(old n e).2.2.2.2.2.2.2.1, (old n e).2.2.2.2.2.2.2.2.1]
        split
        · intro h; cases h
        · split
          · rename_i g; intro _; rw [g]; exact hlk
          · exact H.spl n (A' hn e)
  · show CtxOk main s' d
    have hol : (s.node p).parent = 0 → p = s.top := by
      intro h0
      rcases H.orph p h2 h0 with h | h | h
      · exact h
      · exact absurd h hOp
      · exact absurd h.symm hyp
    have hop : p = s.top → (s.node p).parent = 0 := by intro e; rw [e]; exact H.topPar
    refine ⟨?_, ?_, ?_, ?_, ?_, ?_, ?_, ?_, ?_, d7, ?_⟩
    · rw [d3]; exact A h2
    · rw [d4]; exact nA
    · rw [d2]; exact A h1.ar
    · rw [d3, d4]; exact hpf
    · rw [d3, d4, new.1, (old p hpf).1]
    · rw [d4]; exact new.2.2.2.2.1
    · rw [d3, (old p hpf).2.2.2.2.2.2.2.2.1, if_neg (by simp [hlp.symm, hyp.symm]), if_pos rfl]
    · rw [d4]; exact new.2.2.2.2.2.2.2.2
    · rw [htop, d5, d6, d3]
      cases main with
      | true =>
        simp only [if_true, Bool.true_and]
        have rt := H.rootTop rfl
        constructor
        · by_cases h0 : (s.node p).parent = 0
          · rw [rt, ← hol h0]; simp
          · simp [h0]
        · intro e
          rw [rt, e]; simp
      | false =>
        simp only [Bool.false_and, Bool.not_false, Bool.true_and]
        refine ⟨by trivial, ?_⟩
        intro e
        rw [e, H.topRoot, H.topPar]; rfl
    · rw [d1]; exact h1.op

end

end Verif.Index
