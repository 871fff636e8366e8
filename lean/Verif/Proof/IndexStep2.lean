import Verif.Proof.IndexStep
set_option linter.unusedSimpArgs false
set_option linter.unusedVariables false
/-! The steps that change the index. -/
namespace Verif.Index
open Verif.Internode
variable {V : Type}

theorem vchild_cases (a : Arr Nat) (p y j : Nat) (hp : p ≤ a.nkeys) (hj : j ≤ a.nkeys + 1) :
    (j = p + 1 ∧ vchild a p y j = y) ∨ ∃ k, k ≤ a.nkeys ∧ vchild a p y j = a.child k ∧ (k = j ∧ j ≤ p ∨ k + 1 = j ∧ p + 1 < j) := by
  unfold vchild
  by_cases h1 : j ≤ p
  · rw [if_pos h1]; exact .inr ⟨j, by omega, rfl, .inl ⟨rfl, h1⟩⟩
  · rw [if_neg h1]
    by_cases h2 : j = p + 1
    · rw [if_pos h2]; exact .inl ⟨h2, rfl⟩
    · rw [if_neg h2]; exact .inr ⟨j - 1, by omega, rfl, .inr ⟨by omega, by omega⟩⟩

theorem vchild_new (a : Arr Nat) (p y : Nat) : vchild a p y (p + 1) = y := by
  unfold vchild; rw [if_neg (by omega), if_pos rfl]

theorem vchild_old (a : Arr Nat) (p y k : Nat) (hk : k ≤ a.nkeys) :
    ∃ j, j ≤ a.nkeys + 1 ∧ vchild a p y j = a.child k := by
  unfold vchild
  by_cases h : k ≤ p
  · exact ⟨k, by omega, by rw [if_pos h]⟩
  · exact ⟨k + 1, by omega, by rw [if_neg (by omega), if_neg (by omega)]; rfl⟩

theorem vchild_inj {a : Arr Nat} {p y : Nat} (hp : p ≤ a.nkeys)
    (hi : ∀ i j, i ≤ a.nkeys → j ≤ a.nkeys → a.child i = a.child j → i = j) (hy : ∀ i, i ≤ a.nkeys → a.child i ≠ y)
    {i j : Nat} (h1 : i ≤ a.nkeys + 1) (h2 : j ≤ a.nkeys + 1) (h : vchild a p y i = vchild a p y j) : i = j := by
  rcases vchild_cases a p y i hp h1 with ⟨e1, e2⟩ | ⟨k, k1, k2, k3⟩ <;> rcases vchild_cases a p y j hp h2 with ⟨f1, f2⟩ | ⟨m, m1, m2, m3⟩
  · omega
  · rw [e2, m2] at h; exact absurd h.symm (hy m m1)
  · rw [f2, k2] at h; exact absurd h (hy k k1)
  · rw [k2, m2] at h
    have := hi k m k1 m1 h
    omega

section
variable {main : Bool} {s : Heap V} {O B : Nat → Prop}

/-- One store of `insert_key_and_child`. -/
theorem Post.store {c : Ctx V} {p : Nat} {st : Store} {todo : List Store} (P : Pre main s (.ins c p (st :: todo)) O B) :
    Post main s (.ins c p (st :: todo)) O B (s.mod p (fun n => { n with arr := st.apply n.arr })) (.ins c p todo) := by
  obtain ⟨h1, h2, h3, h4, h5, idx, dn, e1, e2, e3, e4, e5⟩ := P.ok
  have H := P.H
  have hlp : c.l ≠ p := by intro e; rw [← e] at h3; omega
  have hyp : c.y ≠ p := by intro e; have := h1.ht; rw [e] at this; omega
  let s' := s.mod p (fun n => { n with arr := st.apply n.arr })
  have e : ∀ n, (s'.node n).ht = (s.node n).ht ∧ (s'.node n).base = (s.node n).base ∧ (s'.node n).parent = (s.node n).parent ∧
      (s'.node n).next = (s.node n).next ∧ (s'.node n).rootf = (s.node n).rootf ∧ (s'.node n).splitting = (s.node n).splitting ∧
      (s'.node n).lo = (s.node n).lo ∧ (s'.node n).locked = (s.node n).locked := by
    intro n
    simp only [s', mod_node]
    by_cases c : n = p
    · subst c; rw [if_pos rfl]; simp
    · rw [if_neg c]; simp
  have hk : ∀ n, (s'.node n).arr = if n = p then st.apply (s.node p).arr else (s.node n).arr := by
    intro n; simp only [s', mod_node]; split <;> rfl
  refine ⟨⟨Nat.le_refl _, fun n _ => (e n).1, fun n _ => (e n).2.2.2.2.2.2.1, ?_, fun n _ => .inl (e n).2.2.1, .inl rfl, ?_, ?_⟩, ?_, ?_⟩
  · intro n _ hn hn'
    simp only [holds, List.mem_cons, List.not_mem_nil, or_false, not_or] at hn'
    refine ⟨(e n).2.2.2.2.2.2.2, (e n).2.2.2.2.2.1, ?_, (e n).2.1⟩
    show (s'.node n).arr = _
    rw [hk, if_neg hn'.2.2]
  · intro n hn
    exact ⟨(P.K n hn).1, by rw [(e n).2.2.2.2.2.2.2]; exact (P.K n hn).2, .inl hn⟩
  · intro n h5 h6
    rw [(e n).2.2.2.2.2.2.2] at h6
    by_cases c2 : n ∈ holds (.ins c p (st :: todo) : Pc V)
    · exact .inl c2
    · exact .inr ⟨h5, h6, c2⟩
  · refine H.congr' rfl rfl rfl (fun n _ => ⟨(e n).1, (e n).2.1, (e n).2.2.1, (e n).2.2.2.1, (e n).2.2.2.2.1⟩) ?_ ?_
    · intro n hn
      by_cases c1 : n = p
      · right
        refine ⟨.inr c1, ?_⟩
        intro i
        have hc := H.cells p h2
        have key : ∀ i, (st.apply (s.node p).arr).child i = 0 ∨ Al s ((st.apply (s.node p).arr).child i) ∧
            (s.node ((st.apply (s.node p).arr).child i)).ht + 1 = (s.node p).ht := by
          cases st with
          | key i x => exact hc
          | nkeys x => exact hc
          | child k x =>
            intro i
            simp only [Store.apply, upd]
            split
            · right
              have hm : Store.child k x ∈ insertStores (s.node p).base idx c.sep c.y := by rw [e4]; simp
              rcases insertStores_child e1 hm with h | ⟨j, j1, j2⟩
              · rw [h]; exact ⟨h1.ay, by rw [h1.ht, h3]⟩
              · rw [j2]
                obtain ⟨k1, k2, k3⟩ := H.kid p h2 (by omega) j j1
                exact ⟨k1, k3⟩
            · exact hc i
        have ea := hk n
        rw [if_pos c1] at ea
        show (s'.node n).arr.child i = 0 ∨ Al s ((s'.node n).arr.child i) ∧ _
        rw [ea, c1]
        exact key i
      · left
        have ea := hk n
        rw [if_neg c1] at ea
        exact ea
    · intro n hn
      show (s'.node n).splitting = true → (s'.node n).locked = true
      rw [(e n).2.2.2.2.2.1, (e n).2.2.2.2.2.2.2]
      exact H.spl n hn
  · refine ⟨⟨h1.al, h1.ay, h1.ar, h1.ne, ?_, ?_, ?_, ?_, h1.flags, h1.stale, h1.op⟩, h2, ?_, ?_, ?_, idx, dn ++ [st], ?_, ?_, ?_, ?_, ?_⟩
    · rw [(e _).1, (e _).1]; exact h1.ht
    · rw [(e _).2.2.1]; exact h1.py
    · rw [(e _).2.2.2.2.2.1]; exact h1.sl
    · rw [(e _).2.2.2.2.2.1]; exact h1.sy
    · rw [(e _).1, (e _).1]; exact h3
    · rw [(e _).2.2.2.2.2.1]; exact h4
    · rw [(e _).2.2.1]; exact h5
    · rw [(e _).2.1]; exact e1
    · rw [(e _).2.1]; exact e2
    · rw [(e _).2.1]; exact e3
    · rw [(e _).2.1, e4]; simp
    · have ea := hk p
      rw [if_pos rfl] at ea
      rw [(e _).2.1]
      show (s'.node p).arr = _
      rw [ea, e5]; simp

/-- The end of an insertion into the parent. -/
theorem Post.fin {c : Ctx V} {p : Nat} (P : Pre main s (.ins c p []) O B) :
    Post main s (.ins c p []) O B
      ((((s.mod c.y (fun z => { z with parent := p })).mod c.y Node.unlock).mod p Node.unlock).mod c.l Node.unlock) (.climb c.o c.r) := by
  obtain ⟨h1, h2, h3, h4, h5, idx, dn, e1, e2, e3, e4, e5⟩ := P.ok
  have H := P.H
  simp only [right, busy] at H
  have hlp : c.l ≠ p := by intro e; rw [← e] at h3; omega
  have hyp : c.y ≠ p := by intro e; have := h1.ht; rw [e] at this; omega
  have hne := h1.ne
  have harr : (s.node p).arr = insertKeyAndChild (s.node p).base idx c.sep c.y := by
    rw [e5, ← insertStores_fold _ _ _ _ e1, e4]; simp
  have hBl : ¬ B c.l := fun hb => (P.hB _ hb).2.2 (by simp [holds])
  have hBy : ¬ B c.y := fun hb => (P.hB _ hb).2.2 (by simp [holds])
  have hOl : ¬ O c.l := fun hb => (P.hO _ hb).2.2 (by simp [holds])
  have hOy : ¬ O c.y := fun hb => (P.hO _ hb).2.2 (by simp [holds])
  have hOp : ¬ O p := fun hb => (P.hO _ hb).2.2 (by simp [holds])
  have sl := H.same c.l h1.al (by intro h; rcases h with h | h; exact hBl h; exact hlp h)
  have sy := H.same c.y h1.ay (by intro h; rcases h with h | h; exact hBy h; exact hyp h)
  have tl : s.top ≠ c.l := by intro e; have := H.topPar; rw [e, h5] at this; have := h2.1; omega
  have ty : s.top ≠ c.y := by intro e; exact H.topO (.inr e)
  let s' := ((((s.mod c.y (fun z => { z with parent := p })).mod c.y Node.unlock).mod p Node.unlock).mod c.l Node.unlock)
  have hf : s'.fresh = s.fresh := rfl
  have htop : s'.top = s.top := rfl
  have hroot : s'.root = s.root := rfl
  have f1 : ∀ n, (s'.node n).ht = (s.node n).ht ∧ (s'.node n).lo = (s.node n).lo ∧ (s'.node n).next = (s.node n).next ∧
      (s'.node n).arr = (s.node n).arr := by
    intro n
    simp only [s', mod_node]
    by_cases c1 : n = c.l <;> by_cases c2 : n = p <;> by_cases c3 : n = c.y <;> simp_all
  have f2 : ∀ n, (s'.node n).parent = if n = c.y then p else (s.node n).parent := by
    intro n
    simp only [s', mod_node]
    by_cases c1 : n = c.l <;> by_cases c2 : n = p <;> by_cases c3 : n = c.y <;> simp_all
  have f3 : ∀ n, (s'.node n).base = if n = p then (s.node p).arr else (s.node n).base := by
    intro n
    simp only [s', mod_node]
    by_cases c1 : n = c.l <;> by_cases c2 : n = p <;> by_cases c3 : n = c.y <;> simp_all
  have f4 : ∀ n, (s'.node n).locked = if n = c.l ∨ n = c.y ∨ n = p then false else (s.node n).locked := by
    intro n
    simp only [s', mod_node]
    by_cases c1 : n = c.l <;> by_cases c2 : n = p <;> by_cases c3 : n = c.y <;> simp_all
  have f5 : ∀ n, (s'.node n).splitting = if n = c.l ∨ n = c.y ∨ n = p then false else (s.node n).splitting := by
    intro n
    simp only [s', mod_node]
    by_cases c1 : n = c.l <;> by_cases c2 : n = p <;> by_cases c3 : n = c.y <;> simp_all
  have f6 : ∀ n, n ≠ c.l → n ≠ c.y → (s'.node n).rootf = (s.node n).rootf := by
    intro n c1 c3
    simp only [s', mod_node]
    by_cases c2 : n = p <;> simp_all
  have A : ∀ n, Al s' n = Al s n := fun n => by simp only [Al, hf]
  have kidp := H.kid p h2 (by omega)
  have hyk : ∀ i, i ≤ (s.node p).base.nkeys → (s.node p).base.child i ≠ c.y := by
    intro i hi e
    have := (kidp i hi).2.1
    rw [e, h1.py] at this
    have := h2.1; omega
  have bp : (s'.node p).base.nkeys = (s.node p).base.nkeys + 1 := by rw [f3, if_pos rfl, harr]; rfl
  have bc : ∀ j, j ≤ (s.node p).base.nkeys + 1 → (s'.node p).base.child j = vchild (s.node p).base idx c.y j := by
    intro j hj
    rw [f3, if_pos rfl, harr, insert_child _ _ _ _ e1 _ hj]; rfl
  have hst : ∀ n, n ∉ holds (.ins c p [] : Pc V) → n ≠ c.l ∧ n ≠ c.y ∧ n ≠ p := by
    intro n hn; simpa [holds] using hn
  have htcl : ∀ n, n = c.l → (s'.node n).ht + 1 = (s'.node p).ht := by
    intro n e; rw [e, (f1 _).1, (f1 _).1, h3]
  show Post main s (.ins c p []) O B s' (.climb c.o c.r)
  refine ⟨⟨Nat.le_refl _, fun n _ => (f1 n).1, fun n _ => (f1 n).2.1, ?_, ?_, .inl rfl, ?_, ?_⟩, ?_, ?_⟩
  · intro n _ hn _
    obtain ⟨a1, a2, a3⟩ := hst n hn
    refine ⟨?_, ?_, (f1 n).2.2.2, ?_⟩
    · rw [f4, if_neg (by simp [a1, a2, a3])]
    · rw [f5, if_neg (by simp [a1, a2, a3])]
    · rw [f3, if_neg a3]
  · intro n hn
    by_cases e : n = c.y
    · right; right; simp [holds, e]
    · left; rw [f2, if_neg e]
  · intro n hn; simp [holds] at hn
  · intro n hn hl
    right
    rw [f4] at hl
    split at hl
    · cases hl
    · rename_i h; exact ⟨hn, hl, by simpa [holds] using h⟩
  · simp only [right, busy, or_false]
    constructor
    · rw [A, htop]; exact H.topAl
    · rw [htop, f2, if_neg ty]; exact H.topPar
    · rw [htop, f6 _ tl ty]; exact H.topRoot
    · rw [htop]; intro h; exact H.topO (.inl h)
    · rw [A, hroot]; exact H.rootAl
    · rw [hroot, htop]; exact H.rootTop
    · intro n hn h0 i hi
      rw [A] at hn
      rw [(f1 n).1] at h0
      by_cases c1 : n = p
      · rw [c1] at hi ⊢
        rw [bp] at hi
        rw [bc i hi, A]
        rcases vchild_cases _ idx c.y i e1 hi with ⟨_, g⟩ | ⟨k, k1, k2, _⟩
        · rw [g]; exact ⟨h1.ay, by rw [f2, if_pos rfl], by rw [(f1 _).1, (f1 _).1, h1.ht, h3]⟩
        · rw [k2]
          obtain ⟨m1, m2, m3⟩ := kidp k k1
          exact ⟨m1, by rw [f2, if_neg (hyk k k1)]; exact m2, by rw [(f1 _).1, (f1 _).1]; exact m3⟩
      · rw [f3, if_neg c1] at hi ⊢
        obtain ⟨m1, m2, m3⟩ := H.kid n hn h0 i hi
        rw [A, f2, (f1 _).1, (f1 _).1, if_neg]
        · exact ⟨m1, m2, m3⟩
        · intro e; rw [e, h1.py] at m2; have := hn.1; omega
    · intro n hn h0 i j hi hj h
      rw [A] at hn
      rw [(f1 n).1] at h0
      by_cases c1 : n = p
      · rw [c1] at hi hj h
        rw [bp] at hi hj
        rw [bc i hi, bc j hj] at h
        exact vchild_inj e1 (H.inj p h2 (by omega)) hyk hi hj h
      · rw [f3, if_neg c1] at hi hj h
        exact H.inj n hn h0 i j hi hj h
    · intro n hn
      rw [A] at hn
      by_cases c1 : n = p
      · rw [c1, bp]; omega
      · rw [f3, if_neg c1]; exact H.nk n hn
    · intro n hn h0
      rw [A] at hn
      rw [f2] at h0 ⊢
      by_cases c1 : n = c.y
      · rw [if_pos c1, A, (f1 _).1]
        refine ⟨h2, by omega, idx + 1, by rw [bp]; omega, ?_⟩
        rw [bc _ (by omega), vchild_new, c1]
      · rw [if_neg c1] at h0 ⊢
        obtain ⟨m1, m2, k, m3, m4⟩ := H.par n hn h0
        rw [A, (f1 _).1]
        refine ⟨m1, m2, ?_⟩
        by_cases c2 : (s.node n).parent = p
        · rw [c2] at m3 m4 ⊢
          obtain ⟨j, j1, j2⟩ := vchild_old (s.node p).base idx c.y k m3
          exact ⟨j, by rw [bp]; exact j1, by rw [bc j j1, j2, m4]⟩
        · refine ⟨k, ?_, ?_⟩
          · rw [f3, if_neg c2]; exact m3
          · rw [f3, if_neg c2]; exact m4
    · intro n hn i
      rw [A] at hn
      rw [(f1 n).2.2.2, A, (f1 _).1, (f1 _).1]
      exact H.cells n hn i
    · intro n hn
      rw [A] at hn
      rw [(f1 n).2.2.1, A, (f1 _).1]
      exact H.next n hn
    · intro n hn h0
      rw [A] at hn
      rw [f2] at h0
      split at h0
      · have := h2.1; omega
      · rename_i c1
        rcases H.orph n hn h0 with h | h | h
        · exact .inl h
        · exact .inr h
        · exact absurd h c1
    · intro n hn hb
      rw [A] at hn
      rw [f3, (f1 n).2.2.2]
      by_cases c1 : n = p
      · rw [if_pos c1, c1]
      · rw [if_neg c1]
        exact H.same n hn (by intro h; rcases h with h | h; exact hb h; exact c1 h)
    · intro n hn
      rw [A] at hn
      rw [htop, (f1 _).1, (f1 _).1]
      exact H.low n hn
    · intro n hn
      rw [A] at hn
      rw [f4, f5]
      split
      · intro h; cases h
      · exact H.spl n hn
  · exact h1.ar

end

end Verif.Index
