import Verif.Proof.IndexInv
set_option linter.unusedSimpArgs false
set_option linter.unusedVariables false
/-!
The order of keys in the index, for descents that give up when they see a lock.
-/
namespace Verif.Index
open Verif.Internode
variable {V : Type}

/-! ## Entries of a leaf -/

/-- Keys strictly ascending. -/
def Asc (l : List (Nat × V)) : Prop := l.Pairwise (fun a b => a.1 < b.1)

theorem lookup_mem {t : Nat} {v : V} : ∀ {l : List (Nat × V)}, lookup t l = some v → (t, v) ∈ l
  | [], h => by simp [lookup] at h
  | e :: es, h => by
    simp only [lookup] at h
    split at h
    · rename_i c; cases h; subst c; simp
    · exact List.mem_cons_of_mem _ (lookup_mem h)

theorem lookup_none {t : Nat} : ∀ {l : List (Nat × V)}, lookup t l = none → ∀ e, e ∈ l → e.1 ≠ t
  | [], _, e, he => by simp at he
  | x :: es, h, e, he => by
    simp only [lookup] at h
    split at h
    · cases h
    · rename_i c
      rcases List.mem_cons.1 he with g | g
      · rw [g]; exact c
      · exact lookup_none h e g

theorem mem_lookup {t : Nat} {v : V} : ∀ {l : List (Nat × V)}, Asc l → (t, v) ∈ l → lookup t l = some v
  | [], _, h => by simp at h
  | e :: es, hs, h => by
    simp only [lookup]
    have hs' := List.pairwise_cons.1 hs
    rcases List.mem_cons.1 h with g | g
    · rw [← g]; simp
    · have := hs'.1 _ g
      rw [if_neg (by simp only at this; omega)]
      exact mem_lookup hs'.2 g

theorem put_mem {t : Nat} {v : V} {e : Nat × V} : ∀ {l : List (Nat × V)}, Asc l → (e ∈ put t v l ↔ e = (t, v) ∨ e ∈ l ∧ e.1 ≠ t)
  | [], _ => by simp [put]
  | x :: es, hs => by
    have hs' := List.pairwise_cons.1 hs
    simp only [put]
    split
    · rename_i c
      simp only [List.mem_cons]
      constructor
      · rintro (h | h)
        · exact .inl h
        · exact .inr ⟨.inr h, by have := hs'.1 _ h; omega⟩
      · rintro (h | ⟨h | h, h'⟩)
        · exact .inl h
        · rw [h] at h'; exact absurd c h'
        · exact .inr h
    · rename_i c
      split
      · rename_i c2
        simp only [List.mem_cons]
        constructor
        · rintro (h | h | h)
          · exact .inl h
          · exact .inr ⟨.inl h, by rw [h]; exact c⟩
          · exact .inr ⟨.inr h, by have := hs'.1 _ h; omega⟩
        · rintro (h | ⟨h, _⟩)
          · exact .inl h
          · exact .inr h
      · simp only [List.mem_cons, put_mem hs'.2]
        constructor
        · rintro (h | h | ⟨h, h'⟩)
          · exact .inr ⟨.inl h, by rw [h]; exact c⟩
          · exact .inl h
          · exact .inr ⟨.inr h, h'⟩
        · rintro (h | ⟨h | h, h'⟩)
          · exact .inr (.inl h)
          · exact .inl h
          · exact .inr (.inr ⟨h, h'⟩)

theorem put_asc {t : Nat} {v : V} : ∀ {l : List (Nat × V)}, Asc l → Asc (put t v l)
  | [], _ => by simp [put, Asc]
  | x :: es, hs => by
    have hs' := List.pairwise_cons.1 hs
    simp only [put]
    split
    · rename_i c
      refine List.pairwise_cons.2 ⟨?_, hs'.2⟩
      intro e he; have := hs'.1 e he; simp only; omega
    · rename_i c
      split
      · rename_i c2
        refine List.pairwise_cons.2 ⟨?_, hs⟩
        intro e he
        rcases List.mem_cons.1 he with g | g
        · rw [g]; exact c2
        · have := hs'.1 e g; simp only; omega
      · rename_i c2
        refine List.pairwise_cons.2 ⟨?_, put_asc hs'.2⟩
        intro e he
        rcases (put_mem hs'.2).1 he with g | ⟨g, _⟩
        · rw [g]; simp only; omega
        · exact hs'.1 e g

/-! ## Versions -/

/-- The version of a node as a reader sees it. -/
def ver (n : Node V) : Nat × Nat := (n.vs, n.vi)

def vle (a b : Nat × Nat) : Prop := a.1 < b.1 ∨ a.1 = b.1 ∧ a.2 ≤ b.2

theorem vle_refl (a : Nat × Nat) : vle a a := .inr ⟨rfl, Nat.le_refl _⟩
theorem vle_trans {a b c : Nat × Nat} (h : vle a b) (h' : vle b c) : vle a c := by
  unfold vle at *; omega
theorem vle_antisymm {a b : Nat × Nat} (h : vle a b) (h' : vle b a) : a = b := by
  unfold vle at *; apply Prod.ext <;> omega

/-- A node with the version it had before, and unlocked, has not been touched. -/
def NVer (a b : Node V) : Prop :=
  vle (ver a) (ver b) ∧ (ver b = ver a → b.locked = false → a.locked = false ∧ b.arr = a.arr)

theorem NVer.refl (a : Node V) : NVer a a := ⟨vle_refl _, fun _ h => ⟨h, rfl⟩⟩
theorem NVer.trans {a b c : Node V} (h : NVer a b) (h' : NVer b c) : NVer a c := by
  refine ⟨vle_trans h.1 h'.1, fun e hl => ?_⟩
  have e1 : ver b = ver a := by
    apply vle_antisymm
    · rw [← e]; exact h'.1
    · exact h.1
  have := h'.2 (by rw [e, e1]) hl
  have := h.2 e1 this.1
  simp_all
theorem NVer.unlock (a : Node V) : NVer a a.unlock := by
  refine ⟨?_, fun e => ?_⟩
  · simp only [vle, ver, unlock_vs, unlock_vi]
    split <;> omega
  · simp only [ver, unlock_vs, unlock_vi, Prod.mk.injEq] at e
    split at e <;> omega
theorem NVer.of_locked {a b : Node V} (h : ver b = ver a) (hl : b.locked = true) : NVer a b :=
  ⟨by rw [h]; exact vle_refl _, fun _ h => by rw [hl] at h; cases h⟩
theorem NVer.of_same {a b : Node V} (h : ver b = ver a) (hl : b.locked = a.locked) (ha : b.arr = a.arr) : NVer a b :=
  ⟨by rw [h]; exact vle_refl _, fun _ h => ⟨by rw [← hl]; exact h, ha⟩⟩

/-- For all nodes. -/
def Ver (s s' : Heap V) : Prop := ∀ n, Al s n → NVer (s.node n) (s'.node n)

theorem Ver.refl (s : Heap V) : Ver s s := fun n _ => .refl _
theorem Ver.mod {s s' : Heap V} (h : Ver s s') (n : Nat) (f : Node V → Node V) (hf : NVer (s'.node n) (f (s'.node n))) :
    Ver s (s'.mod n f) := by
  intro m hm
  rw [mod_node]
  split
  · rename_i e; subst e; exact (h m hm).trans hf
  · exact h m hm

/-! ## The order of keys -/

/-- The order of keys in the heap. -/
structure OInv (s : Heap V) : Prop where
  topLo : (s.node s.top).lo = 0
  rootLo : (s.node s.root).lo = 0
  srt : ∀ n, Al s n → 0 < (s.node n).ht → ∀ i j, i < j → j < (s.node n).base.nkeys → (s.node n).base.ikey i < (s.node n).base.ikey j
  fst : ∀ n, Al s n → 0 < (s.node n).ht → (s.node ((s.node n).base.child 0)).lo = (s.node n).lo
  key : ∀ n, Al s n → 0 < (s.node n).ht → ∀ i, i < (s.node n).base.nkeys →
    (s.node ((s.node n).base.child (i + 1))).lo = (s.node n).base.ikey i
  abv : ∀ n, Al s n → 0 < (s.node n).ht → ∀ i, i < (s.node n).base.nkeys → (s.node n).lo < (s.node n).base.ikey i
  uniq : ∀ a b, Al s a → Al s b → (s.node a).ht = (s.node b).ht → (s.node a).lo = (s.node b).lo → a = b
  keys : ∀ a b, Al s a → Al s b → 0 < (s.node a).ht → (s.node a).ht = (s.node b).ht → (s.node a).lo < (s.node b).lo →
    ∀ i, i < (s.node a).base.nkeys → (s.node a).base.ikey i < (s.node b).lo
  asc : ∀ n, Al s n → (s.node n).ht = 0 → Asc (s.node n).ents
  bnd : ∀ n, Al s n → (s.node n).ht = 0 → ∀ e, e ∈ (s.node n).ents → (s.node n).lo ≤ e.1
  sep : ∀ a b, Al s a → Al s b → (s.node a).ht = 0 → (s.node b).ht = 0 → (s.node a).lo < (s.node b).lo →
    ∀ e, e ∈ (s.node a).ents → e.1 < (s.node b).lo
  nx : ∀ a b, Al s a → Al s b → (s.node a).ht = 0 → (s.node b).ht = 0 → (s.node a).lo < (s.node b).lo →
    (s.node a).next ≠ 0 ∧ (s.node (s.node a).next).lo ≤ (s.node b).lo
  nx' : ∀ a, Al s a → (s.node a).ht = 0 → (s.node a).next ≠ 0 → (s.node a).lo < (s.node (s.node a).next).lo

/-- The new node of a propagation is the right neighbour of the node that was split. -/
structure CtxO (s : Heap V) (c : Ctx V) : Prop where
  ly : (s.node c.y).lo = c.sep
  ll : (s.node c.l).lo < c.sep
  nb : ∀ z, Al s z → (s.node z).ht = (s.node c.l).ht → z ≠ c.y → (s.node c.l).lo < (s.node z).lo → c.sep < (s.node z).lo
  lr : (s.node c.r).lo = 0

/-- Nobody has touched the node since a reader saw version `w`. -/
def Fresh (s : Heap V) (p : Nat) (w : Nat × Nat) : Prop := ver (s.node p) = w ∧ (s.node p).locked = false

/-- A thread is not to the right of its key. -/
def ROk (s : Heap V) : Pc V → Prop
  | .idle => True
  | .climb _ p => (s.node p).lo = 0
  | .stab o r p => (s.node r).lo = 0 ∧ (s.node p).lo ≤ o.key
  | .nk o r p w => (s.node r).lo = 0 ∧ (s.node p).lo ≤ o.key ∧ vle w (ver (s.node p))
  | .cmp o r p w a b => (s.node r).lo = 0 ∧ (s.node p).lo ≤ o.key ∧ vle w (ver (s.node p)) ∧
      (Fresh s p w → a ≤ (s.node p).arr.nkeys ∧ b ≤ (s.node p).arr.nkeys ∧ ∀ j, j < a → (s.node p).arr.ikey j ≤ o.key)
  | .chld o r p w i => (s.node r).lo = 0 ∧ (s.node p).lo ≤ o.key ∧ vle w (ver (s.node p)) ∧
      (Fresh s p w → i ≤ (s.node p).arr.nkeys ∧ ∀ j, j < i → (s.node p).arr.ikey j ≤ o.key)
  | .chk o r p w c => (s.node r).lo = 0 ∧ (s.node p).lo ≤ o.key ∧ vle w (ver (s.node p)) ∧ (Fresh s p w → (s.node c).lo ≤ o.key)
  | .chk2 o r p _ => (s.node r).lo = 0 ∧ (s.node p).lo ≤ o.key
  | .look o l => (s.node l).lo ≤ o.key ∧ ∃ t, o = .get t
  | .nxt o l => (s.node l).lo ≤ o.key ∧ ∃ t, o = .get t
  | .adv o r _ l => (s.node r).lo = 0 ∧ (s.node l).lo ≤ o.key
  | .sect o r l => (s.node r).lo = 0 ∧ (s.node l).lo ≤ o.key
  | .par c => CtxO s c
  | .lck c _ => CtxO s c
  | .rechk c _ => CtxO s c
  | .ins c _ _ => CtxO s c
  | .done _ _ => True
  | .fail _ _ => True

/-- New nodes stand right after a node the thread holds, or above everything. -/
def New (s s' : Heap V) (c' : Pc V) : Prop := ∀ z, Al s' z → ¬ Al s z →
  (∀ n, Al s n → (s.node n).ht < (s'.node z).ht) ∨
  ∃ l, Al s l ∧ l ∈ holds c' ∧ (s.node l).ht = (s'.node z).ht ∧ (s.node l).lo < (s'.node z).lo ∧
    ∀ b, Al s b → (s.node b).ht = (s.node l).ht → (s.node l).lo < (s.node b).lo → (s'.node z).lo < (s.node b).lo

/-- Key `t` is bound to `v` in the layer. -/
def Bound (s : Heap V) (t : Nat) (v : V) : Prop := ∃ l, Al s l ∧ (s.node l).ht = 0 ∧ (t, v) ∈ (s.node l).ents

/-- What a step does to the bindings. -/
def Eff (s : Heap V) (c : Pc V) (s' : Heap V) (c' : Pc V) : Prop :=
  (∃ r l t v x, c = .sect (.insert t v) r l ∧ c' = .done (.insert t v) x ∧ (∀ w, x = some w ↔ Bound s t w) ∧
    ∀ t' w, Bound s' t' w ↔ if t' = t then w = v else Bound s t' w) ∨
  ((∀ t w, Bound s' t w ↔ Bound s t w) ∧ ∀ t v x, c' = .done (.insert t v) x → c = c')

/-- What is known after a step. -/
structure OPost (s : Heap V) (c : Pc V) (s' : Heap V) (c' : Pc V) : Prop where
  V : Ver s s'
  N : New s s' c'
  I : OInv s'
  ok : ROk s' c'
  eff : Eff s c s' c'

/-- A thread is not disturbed by a step of another. -/
theorem ROk.frame {main : Bool} {s s' : Heap V} {c c' d : Pc V} (L : Legal s c s' c') (W : Ver s s') (N : New s s' c') (I : OInv s)
    (hd : ∀ n, n ∈ holds d → n ∉ holds c') (ok : PcOk main s d) (h : ROk s d) : ROk s' d := by
  have A : ∀ {n}, Al s n → Al s' n := fun h => h.mono L.fresh
  have lo := L.lo
  have C : ∀ x : Ctx V, x.l ∈ holds d → x.y ∈ holds d → CtxOk main s x → CtxO s x → CtxO s' x := by
    intro x hl hy k h
    refine ⟨?_, ?_, ?_, ?_⟩
    · rw [lo _ k.ay]; exact h.ly
    · rw [lo _ k.al]; exact h.ll
    · intro z hz hh hne hlt
      rw [L.ht _ k.al] at hh
      rw [lo _ k.al] at hlt
      by_cases c1 : Al s z
      · rw [L.ht _ c1] at hh
        rw [lo _ c1] at hlt ⊢
        exact h.nb z c1 hh hne hlt
      · rcases N z hz c1 with g | ⟨l, g1, g2, g3, g4, g5⟩
        · have := g _ k.al; omega
        · have n1 : l ≠ x.l := by intro e; exact hd _ hl (by rw [← e]; exact g2)
          have n2 : l ≠ x.y := by intro e; exact hd _ hy (by rw [← e]; exact g2)
          rcases Nat.lt_trichotomy (s.node l).lo (s.node x.l).lo with e | e | e
          · have := g5 x.l k.al (by omega) e; omega
          · exact absurd (I.uniq l x.l g1 k.al (by omega) e) n1
          · have := h.nb l g1 (by omega) n2 e; omega
    · rw [lo _ k.ar]; exact h.lr
  have F : ∀ p w, Al s p → vle w (ver (s.node p)) → vle w (ver (s'.node p)) ∧
      (Fresh s' p w → Fresh s p w ∧ (s'.node p).arr = (s.node p).arr) := by
    intro p w hp hw
    obtain ⟨w1, w2⟩ := W p hp
    refine ⟨vle_trans hw w1, fun ⟨f1, f2⟩ => ?_⟩
    have e : ver (s.node p) = w := vle_antisymm (by rw [← f1]; exact w1) hw
    have := w2 (by rw [f1, e]) f2
    exact ⟨⟨e, this.1⟩, this.2⟩
  cases d with
  | idle => trivial
  | climb o p => simp only [ROk] at h ⊢; rw [lo _ ok]; exact h
  | stab o r p => simp only [ROk] at h ⊢; rw [lo _ ok.1, lo _ ok.2]; exact h
  | nk o r p w =>
    simp only [ROk] at h ⊢; rw [lo _ ok.1, lo _ ok.2.1]
    exact ⟨h.1, h.2.1, (F p w ok.2.1 h.2.2).1⟩
  | cmp o r p w a b =>
    simp only [ROk] at h ⊢; rw [lo _ ok.1, lo _ ok.2.1]
    obtain ⟨f1, f2⟩ := F p w ok.2.1 h.2.2.1
    refine ⟨h.1, h.2.1, f1, fun g => ?_⟩
    rw [(f2 g).2]; exact h.2.2.2 (f2 g).1
  | chld o r p w i =>
    simp only [ROk] at h ⊢; rw [lo _ ok.1, lo _ ok.2.1]
    obtain ⟨f1, f2⟩ := F p w ok.2.1 h.2.2.1
    refine ⟨h.1, h.2.1, f1, fun g => ?_⟩
    rw [(f2 g).2]; exact h.2.2.2 (f2 g).1
  | chk o r p w c =>
    simp only [ROk] at h ⊢; rw [lo _ ok.1, lo _ ok.2.1, lo _ ok.2.2.2]
    obtain ⟨f1, f2⟩ := F p w ok.2.1 h.2.2.1
    exact ⟨h.1, h.2.1, f1, fun g => h.2.2.2 (f2 g).1⟩
  | chk2 o r p w => simp only [ROk] at h ⊢; rw [lo _ ok.1, lo _ ok.2.1]; exact h
  | look o l => simp only [ROk] at h ⊢; rw [lo _ ok.1]; exact h
  | nxt o l => simp only [ROk] at h ⊢; rw [lo _ ok.1]; exact h
  | adv o r k l => simp only [ROk] at h ⊢; rw [lo _ ok.1, lo _ ok.2.1]; exact h
  | sect o r l => simp only [ROk] at h ⊢; rw [lo _ ok.1, lo _ ok.2.1]; exact h
  | par x => exact C x (by simp [holds]) (by simp [holds]) ok h
  | lck x p => exact C x (by simp [holds]) (by simp [holds]) ok.1 h
  | rechk x p => exact C x (by simp [holds]) (by simp [holds]) ok.1 h
  | ins x p t => exact C x (by simp [holds]) (by simp [holds]) ok.1 h
  | done o r => trivial
  | fail o e => trivial

/-- Changes that the order does not notice. -/
theorem OInv.congr' {s s' : Heap V} (I : OInv s) (tA : Al s s.top) (rA : Al s s.root)
    (K : ∀ n, Al s n → 0 < (s.node n).ht → ∀ i, i ≤ (s.node n).base.nkeys → Al s ((s.node n).base.child i))
    (NX : ∀ n, Al s n → (s.node n).next ≠ 0 → Al s (s.node n).next) (hf : s'.fresh = s.fresh)
    (hr : s'.root = s.root) (ht : s'.top = s.top)
    (e : ∀ n, Al s n → (s'.node n).ht = (s.node n).ht ∧ (s'.node n).lo = (s.node n).lo ∧ (s'.node n).ents = (s.node n).ents ∧
      (s'.node n).next = (s.node n).next ∧ (0 < (s.node n).ht → (s'.node n).base = (s.node n).base)) :
    OInv s' ∧ ∀ t w, Bound s' t w ↔ Bound s t w := by
  have A : ∀ n, Al s' n = Al s n := fun n => by simp only [Al, hf]
  constructor
  · constructor
    · rw [ht, (e _ tA).2.1]; exact I.topLo
    · rw [hr, (e _ rA).2.1]; exact I.rootLo
    · intro n hn h0; rw [A] at hn; obtain ⟨e1, e2, e3, e4, e5⟩ := e n hn; rw [e1] at h0; rw [e5 h0]; exact I.srt n hn h0
    · intro n hn h0; rw [A] at hn; obtain ⟨e1, e2, e3, e4, e5⟩ := e n hn; rw [e1] at h0
      rw [e5 h0, (e _ (K n hn h0 0 (by omega))).2.1, e2]; exact I.fst n hn h0
    · intro n hn h0; rw [A] at hn; obtain ⟨e1, e2, e3, e4, e5⟩ := e n hn; rw [e1] at h0; rw [e5 h0]
      intro i hi; rw [(e _ (K n hn h0 (i + 1) (by omega))).2.1]; exact I.key n hn h0 i hi
    · intro n hn h0; rw [A] at hn; obtain ⟨e1, e2, e3, e4, e5⟩ := e n hn; rw [e1] at h0; rw [e5 h0, e2]; exact I.abv n hn h0
    · intro a b ha hb; rw [A] at ha hb; rw [(e a ha).1, (e b hb).1, (e a ha).2.1, (e b hb).2.1]; exact I.uniq a b ha hb
    · intro a b ha hb h0; rw [A] at ha hb; rw [(e a ha).1] at h0
      rw [(e a ha).1, (e b hb).1, (e a ha).2.1, (e b hb).2.1, (e a ha).2.2.2.2 h0]; exact I.keys a b ha hb h0
    · intro n hn; rw [A] at hn; rw [(e n hn).1, (e n hn).2.2.1]; exact I.asc n hn
    · intro n hn; rw [A] at hn; rw [(e n hn).1, (e n hn).2.2.1, (e n hn).2.1]; exact I.bnd n hn
    · intro a b ha hb; rw [A] at ha hb
      rw [(e a ha).1, (e b hb).1, (e a ha).2.1, (e b hb).2.1, (e a ha).2.2.1]; exact I.sep a b ha hb
    · intro a b ha hb h1 h2 h3; rw [A] at ha hb
      rw [(e a ha).1] at h1; rw [(e b hb).1] at h2
      rw [(e a ha).2.1, (e b hb).2.1] at h3
      obtain ⟨g1, g2⟩ := I.nx a b ha hb h1 h2 h3
      rw [(e a ha).2.2.2.1, (e b hb).2.1, (e _ (NX a ha g1)).2.1]; exact ⟨g1, g2⟩
    · intro a ha h1 h2; rw [A] at ha
      rw [(e a ha).1] at h1
      rw [(e a ha).2.2.2.1] at h2 ⊢
      rw [(e a ha).2.1, (e _ (NX a ha h2)).2.1]; exact I.nx' a ha h1 h2
  · intro t w
    constructor
    · rintro ⟨l, h1, h2, h3⟩
      rw [A] at h1
      rw [(e l h1).1] at h2
      rw [(e l h1).2.2.1] at h3
      exact ⟨l, h1, h2, h3⟩
    · rintro ⟨l, h1, h2, h3⟩
      exact ⟨l, by rw [A]; exact h1, by rw [(e l h1).1]; exact h2, by rw [(e l h1).2.2.1]; exact h3⟩

theorem OInv.congr {s s' : Heap V} {main : Bool} {O B : Nat → Prop} (H : HInv main s O B) (I : OInv s) (hf : s'.fresh = s.fresh)
    (hr : s'.root = s.root) (ht : s'.top = s.top)
    (e : ∀ n, Al s n → (s'.node n).ht = (s.node n).ht ∧ (s'.node n).lo = (s.node n).lo ∧ (s'.node n).ents = (s.node n).ents ∧
      (s'.node n).next = (s.node n).next ∧ (0 < (s.node n).ht → (s'.node n).base = (s.node n).base)) :
    OInv s' ∧ ∀ t w, Bound s' t w ↔ Bound s t w := by
  refine I.congr' H.topAl H.rootAl (fun n h h' i hi => (H.kid n h h' i hi).1) ?_ hf hr ht e
  intro n h h'
  rcases H.next n h with g | g
  · exact absurd g h'
  · exact g.1

theorem New.same {s s' : Heap V} {c' : Pc V} (h : s'.fresh = s.fresh) : New s s' c' := by
  intro z h1 h2
  exact absurd (by simpa only [Al, h] using h1) h2

/-- Leaves to both sides of a key. -/
theorem OInv.here {s : Heap V} (I : OInv s) {l z t : Nat} {w : V} (hl : Al s l) (h0 : (s.node l).ht = 0) (hlo : (s.node l).lo ≤ t)
    (hz : Al s z) (hz0 : (s.node z).ht = 0) (hm : (t, w) ∈ (s.node z).ents) : z = l ∨ (s.node l).lo < (s.node z).lo ∧ (s.node z).lo ≤ t := by
  rcases Nat.lt_trichotomy (s.node l).lo (s.node z).lo with e | e | e
  · exact .inr ⟨e, I.bnd z hz hz0 _ hm⟩
  · exact .inl (I.uniq z l hz hl (by omega) e.symm)
  · have := I.sep z l hz hl hz0 h0 e _ hm
    simp only at this; omega

end Verif.Index
