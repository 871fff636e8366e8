import Verif.Proof.IndexOrder2
set_option linter.unusedSimpArgs false
set_option linter.unusedVariables false
/-! The order of keys when a new child enters the index. -/
namespace Verif.Index
open Verif.Internode
variable {V : Type}

section
variable {main : Bool} {s : Heap V} {O B : Nat → Prop}

/-- The parent with the new child, before it is cut in two. -/
structure Virt (s : Heap V) (p idx sep y : Nat) : Prop where
  srt : ∀ i j, i < j → j ≤ (s.node p).base.nkeys → vkey (s.node p).base idx sep i < vkey (s.node p).base idx sep j
  fst : (s.node (vchild (s.node p).base idx y 0)).lo = (s.node p).lo
  key : ∀ i, i ≤ (s.node p).base.nkeys → (s.node (vchild (s.node p).base idx y (i + 1))).lo = vkey (s.node p).base idx sep i
  abv : ∀ i, i ≤ (s.node p).base.nkeys → (s.node p).lo < vkey (s.node p).base idx sep i
  out : ∀ b, Al s b → (s.node b).ht = (s.node p).ht → (s.node p).lo < (s.node b).lo →
    ∀ i, i ≤ (s.node p).base.nkeys → vkey (s.node p).base idx sep i < (s.node b).lo

theorem virt {c : Ctx V} {p idx : Nat} (H : HInv main s O B) (I : OInv s) (h1 : CtxOk main s c) (C : CtxO s c) (h2 : Al s p)
    (h3 : (s.node p).ht = (s.node c.l).ht + 1) (hi : idx ≤ (s.node p).base.nkeys) (hl : (s.node p).base.child idx = c.l) :
    Virt s p idx c.sep c.y := by
  have hp : 0 < (s.node p).ht := by omega
  have kid := H.kid p h2 hp
  have srt := I.srt p h2 hp
  have fst := I.fst p h2 hp
  have key := I.key p h2 hp
  have abv := I.abv p h2 hp
  generalize ha : (s.node p).base = a at *
  have hyk : ∀ q, Al s q → 0 < (s.node q).ht → ∀ i, i ≤ (s.node q).base.nkeys → (s.node q).base.child i ≠ c.y := by
    intro q hq hq0 i hi e
    have := (H.kid q hq hq0 i hi).2.1
    rw [e, h1.py] at this
    have := hq.1; omega
  -- the low bound of the left half
  have low : (idx = 0 → (s.node c.l).lo = (s.node p).lo) ∧ (0 < idx → (s.node c.l).lo = a.ikey (idx - 1)) := by
    constructor
    · intro e; rw [← hl, e]; exact fst
    · intro e
      have := key (idx - 1) (by omega)
      rw [show idx - 1 + 1 = idx by omega, hl] at this; exact this
  have lowp : (s.node p).lo ≤ (s.node c.l).lo := by
    by_cases e : idx = 0
    · rw [low.1 e]; exact Nat.le_refl _
    · rw [low.2 (by omega)]; exact Nat.le_of_lt (abv _ (by omega))
  have ll := C.ll
  have nbk : ∀ i, idx ≤ i → i < a.nkeys → c.sep < a.ikey i := by
    intro i h4 h5
    have k := kid (i + 1) (by omega)
    rw [← key i h5]
    refine C.nb _ k.1 (by omega) (by rw [← ha]; exact hyk p h2 hp _ (by rw [ha]; omega)) ?_
    rw [key i h5]
    by_cases e : idx = 0
    · rw [low.1 e]; exact abv i h5
    · rw [low.2 (by omega)]; exact srt _ _ (by omega) h5
  have nbb : ∀ b, Al s b → (s.node b).ht = (s.node p).ht → (s.node p).lo < (s.node b).lo → c.sep < (s.node b).lo := by
    intro b hb hh hlt
    have k := H.kid b hb (by omega) 0 (by omega)
    rw [← I.fst b hb (by omega)]
    refine C.nb _ k.1 (by omega) (hyk b hb (by omega) 0 (by omega)) ?_
    rw [I.fst b hb (by omega)]
    by_cases e : idx = 0
    · rw [low.1 e]; exact hlt
    · rw [low.2 (by omega), ← ha]; exact I.keys p b h2 hb hp hh.symm hlt _ (by rw [ha]; omega)
  have below : ∀ i, i < idx → a.ikey i < c.sep := by
    intro i h
    have : a.ikey i ≤ a.ikey (idx - 1) := by
      by_cases e : i = idx - 1
      · rw [e]; exact Nat.le_refl _
      · exact Nat.le_of_lt (srt i (idx - 1) (by omega) (by omega))
    rw [← low.2 (by omega)] at this; omega
  refine ⟨?_, ?_, ?_, ?_, ?_⟩ <;> rw [ha]
  · intro i j hij hj
    unfold vkey
    by_cases a1 : i < idx
    · rw [if_pos a1]
      by_cases a2 : j < idx
      · rw [if_pos a2]; exact srt i j hij (by omega)
      · rw [if_neg a2]
        by_cases a3 : j = idx
        · rw [if_pos a3]; exact below i a1
        · rw [if_neg a3]; exact Nat.lt_trans (below i a1) (nbk _ (by omega) (by omega))
    · rw [if_neg a1]
      by_cases a2 : i = idx
      · rw [if_pos a2, if_neg (by omega), if_neg (by omega)]; exact nbk _ (by omega) (by omega)
      · rw [if_neg a2, if_neg (by omega), if_neg (by omega)]; exact srt _ _ (by omega) (by omega)
  · unfold vchild; rw [if_pos (by omega)]; exact fst
  · intro i hi'
    unfold vkey vchild
    by_cases a1 : i < idx
    · rw [if_pos a1, if_pos (by omega)]; exact key i (by omega)
    · rw [if_neg a1, if_neg (by omega)]
      by_cases a2 : i = idx
      · rw [if_pos a2, if_pos (by omega)]; exact C.ly
      · rw [if_neg a2, if_neg (by omega)]
        have := key (i - 1) (by omega)
        rw [show i - 1 + 1 = i by omega] at this; exact this
  · intro i hi'
    unfold vkey
    split
    · exact abv i (by omega)
    · split
      · omega
      · exact abv (i - 1) (by omega)
  · intro b hb hh hlt i hi'
    have K := I.keys p b h2 hb hp hh.symm hlt
    rw [ha] at K
    unfold vkey
    split
    · exact K i (by omega)
    · split
      · exact nbb b hb hh hlt
      · exact K (i - 1) (by omega)

/-- The end of an insertion into the parent. -/
theorem OPost.fin {c : Ctx V} {p : Nat} (P : Pre main s (.ins c p []) O B) (I : OInv s) (C : CtxO s c) :
    OPost s (.ins c p [])
      ((((s.mod c.y (fun z => { z with parent := p })).mod c.y Node.unlock).mod p Node.unlock).mod c.l Node.unlock) (.climb c.o c.r) := by
  obtain ⟨h1, h2, h3, h4, h5, idx, dn, e1, e2, e3, e4, e5⟩ := P.ok
  have H := P.H
  simp only [right, busy] at H
  have hlp : c.l ≠ p := by intro e; rw [← e] at h3; omega
  have hyp : c.y ≠ p := by intro e; have := h1.ht; rw [e] at this; omega
  have hne := h1.ne
  have harr : (s.node p).arr = insertKeyAndChild (s.node p).base idx c.sep c.y := by
    rw [e5, ← insertStores_fold _ _ _ _ e1, e4]; simp
  have hBl : ¬ B c.l := fun hb => (P.hB _ hb).2.2 (by simp [holds])
  have hBy : ¬ B c.y := fun hb => (P.hB _ hb).2.2 (by simp [holds])
  have sl := H.same c.l h1.al (by intro h; rcases h with h | h; exact hBl h; exact hlp h)
  have sy := H.same c.y h1.ay (by intro h; rcases h with h | h; exact hBy h; exact hyp h)
  have Vt := virt H I h1 C h2 h3 e1 e3
  let s' := ((((s.mod c.y (fun z => { z with parent := p })).mod c.y Node.unlock).mod p Node.unlock).mod c.l Node.unlock)
  have f1 : ∀ n, (s'.node n).ht = (s.node n).ht ∧ (s'.node n).lo = (s.node n).lo ∧ (s'.node n).next = (s.node n).next ∧
      (s'.node n).ents = (s.node n).ents := by
    intro n
    simp only [s', mod_node]
    by_cases c1 : n = c.l <;> by_cases c2 : n = p <;> by_cases c3 : n = c.y <;> simp_all
  have f3 : ∀ n, (s'.node n).base = if n = p then (s.node p).arr else (s.node n).base := by
    intro n
    simp only [s', mod_node]
    by_cases c1 : n = c.l <;> by_cases c2 : n = p <;> by_cases c3 : n = c.y <;> simp_all
  have A : ∀ n, Al s' n = Al s n := fun n => rfl
  have ht : ∀ n, (s'.node n).ht = (s.node n).ht := fun n => (f1 n).1
  have lo : ∀ n, (s'.node n).lo = (s.node n).lo := fun n => (f1 n).2.1
  have bn : ∀ n, n ≠ p → (s'.node n).base = (s.node n).base := fun n h => by rw [f3, if_neg h]
  have bp : (s'.node p).base.nkeys = (s.node p).base.nkeys + 1 := by rw [f3, if_pos rfl, harr]; rfl
  have bc : ∀ j, j ≤ (s.node p).base.nkeys + 1 → (s'.node p).base.child j = vchild (s.node p).base idx c.y j := by
    intro j hj
    rw [f3, if_pos rfl, harr, insert_child _ _ _ _ e1 _ hj]; rfl
  have bk : ∀ j, j ≤ (s.node p).base.nkeys → (s'.node p).base.ikey j = vkey (s.node p).base idx c.sep j := by
    intro j hj
    rw [f3, if_pos rfl, harr, insert_ikey _ _ _ _ e1 _ hj]; rfl
  show OPost s _ s' _
  refine ⟨?_, New.same rfl, ?_, ?_, .inr ⟨?_, fun _ _ _ h => by cases h⟩⟩
  · refine ((((Ver.refl s).mod _ _ (.of_same rfl rfl rfl)).mod _ _ (.unlock _)).mod _ _ (.unlock _)).mod _ _ (.unlock _)
  · constructor
    · rw [lo]; exact I.topLo
    · rw [lo]; exact I.rootLo
    · intro n hn h0
      rw [ht] at h0
      by_cases e : n = p
      · subst e; intro i j hij hj; rw [bp] at hj; rw [bk i (by omega), bk j (by omega)]; exact Vt.srt i j hij (by omega)
      · rw [bn n e]; exact I.srt n hn h0
    · intro n hn h0
      rw [ht] at h0; rw [lo, lo]
      by_cases e : n = p
      · subst e; rw [bc 0 (by omega)]; exact Vt.fst
      · rw [bn n e]; exact I.fst n hn h0
    · intro n hn h0 i
      rw [ht] at h0; rw [lo]
      by_cases e : n = p
      · subst e; intro hi; rw [bp] at hi; rw [bc _ (by omega), bk _ (by omega)]; exact Vt.key i (by omega)
      · rw [bn n e]; exact I.key n hn h0 i
    · intro n hn h0 i
      rw [ht] at h0; rw [lo]
      by_cases e : n = p
      · subst e; intro hi; rw [bp] at hi; rw [bk _ (by omega)]; exact Vt.abv i (by omega)
      · rw [bn n e]; exact I.abv n hn h0 i
    · intro a b; rw [ht, ht, lo, lo]; exact I.uniq a b
    · intro a b ha hb h0 hh hlt i
      rw [ht] at h0; rw [ht, ht] at hh; rw [lo, lo] at hlt; rw [lo]
      by_cases e : a = p
      · subst e; intro hi; rw [bp] at hi; rw [bk _ (by omega)]; exact Vt.out b hb hh.symm hlt i (by omega)
      · rw [bn a e]; exact I.keys a b ha hb h0 hh hlt i
    · intro n; rw [ht, (f1 n).2.2.2]; exact I.asc n
    · intro n; rw [ht, lo, (f1 n).2.2.2]; exact I.bnd n
    · intro a b; rw [ht, ht, lo, lo, (f1 a).2.2.2]; exact I.sep a b
    · intro a b; rw [ht, ht, lo, lo, lo, (f1 a).2.2.1]; exact I.nx a b
    · intro a; rw [ht, lo, lo, (f1 a).2.2.1]; exact I.nx' a
  · show (s'.node c.r).lo = 0; rw [lo]; exact C.lr
  · intro t w
    simp only [Bound, ht, (f1 _).2.2.2]; exact Iff.rfl

/-- A new root. -/
theorem OPost.grow {c : Ctx V} (P : Pre main s (.par c) O B) (I : OInv s) (C : CtxO s c) (h0 : (s.node c.l).parent = 0) :
    OPost s (.par c) (newRoot main s c) (.climb c.o c.r) := by
  have h1 : CtxOk main s c := P.ok
  have H := P.H
  have hne := h1.ne
  have htl : c.l = s.top := by
    rcases H.orph c.l h1.al h0 with h | h | h
    · exact h
    · exact absurd (by simp [holds]) (P.hO _ h).2.2
    · exact absurd h h1.ne
  have nf : ∀ n, Al s n → n ≠ s.fresh := by intro n hn; have := hn.2; omega
  have hlf := nf _ h1.al
  have hyf := nf _ h1.ay
  have hBl : ¬ B c.l := fun hb => (P.hB _ hb).2.2 (by simp [holds])
  have hBy : ¬ B c.y := fun hb => (P.hB _ hb).2.2 (by simp [holds])
  have sl := H.same c.l h1.al (by intro h; rcases h with h | h; exact hBl h; exact h)
  have sy := H.same c.y h1.ay (by intro h; rcases h with h | h; exact hBy h; exact h)
  let q := s.fresh
  let s' := newRoot main s c
  have hA : ∀ n, Al s' n ↔ Al s n ∨ n = q := by
    intro n
    have : s'.fresh = s.fresh + 1 := rfl
    have := H.topAl.2
    have := H.topAl.1
    simp only [Al, q]; omega
  have e : ∀ n, n ≠ q → (s'.node n).ht = (s.node n).ht ∧ (s'.node n).lo = (s.node n).lo ∧ (s'.node n).next = (s.node n).next ∧
      (s'.node n).ents = (s.node n).ents ∧ (s'.node n).base = (s.node n).base := by
    intro n hn
    simp only [s', newRoot, mod_node, upd, q] at hn ⊢
    by_cases c1 : n = c.l <;> by_cases c2 : n = c.y <;> simp_all
  have eq : (s'.node q).ht = (s.node c.l).ht + 1 ∧ (s'.node q).lo = (s.node c.l).lo ∧ (s'.node q).base = rootArr c.l c.y c.sep := by
    simp only [s', newRoot, mod_node, upd, q]
    rw [if_neg (Ne.symm hlf), if_neg (Ne.symm hyf)]; simp
  have tall : ∀ n, Al s n → (s.node n).ht < (s.node c.l).ht + 1 := by
    intro n hn; have := H.low n hn; rw [← htl] at this; omega
  have lol : (s.node c.l).lo = 0 := by rw [htl]; exact I.topLo
  have nf' : ∀ n, Al s n → n ≠ q := nf
  have r0 : (rootArr c.l c.y c.sep).nkeys = 1 := rfl
  have r1 : (rootArr c.l c.y c.sep).child 0 = c.l := by simp [rootArr, upd]
  have r2 : (rootArr c.l c.y c.sep).child 1 = c.y := by simp [rootArr, upd]
  have r3 : (rootArr c.l c.y c.sep).ikey 0 = c.sep := by simp [rootArr, upd]
  have nxy : ∀ n, Al s n → (s.node n).next ≠ 0 → Al s (s.node n).next := by
    intro n h h'
    rcases H.next n h with g | g
    · exact absurd g h'
    · exact g.1
  have leaf : ∀ n, Al s' n → (s'.node n).ht = 0 → Al s n := by
    intro n hn hh
    rcases (hA n).1 hn with g | g
    · exact g
    · rw [g, eq.1] at hh; omega
  show OPost s _ s' _
  refine ⟨?_, ?_, ?_, ?_, .inr ⟨?_, fun _ _ _ h => by cases h⟩⟩
  · intro n hn
    have := nf n hn
    simp only [s', newRoot, mod_node, upd]
    have U : ∀ x : Node V, NVer x ({ x with parent := s.fresh, rootf := false } : Node V).unlock := fun x =>
      NVer.trans (b := ({ x with parent := s.fresh, rootf := false } : Node V)) (.of_same rfl rfl rfl) (.unlock _)
    by_cases c1 : n = c.l
    · subst c1; rw [if_pos rfl, if_neg hne, if_neg this]; exact U _
    · rw [if_neg c1]
      by_cases c2 : n = c.y
      · subst c2; rw [if_pos rfl, if_neg this]; exact U _
      · rw [if_neg c2, if_neg this]; exact .refl _
  · intro z hz hz'
    rcases (hA z).1 hz with g | g
    · exact absurd g hz'
    · left; intro n hn; rw [g, eq.1]; exact tall n hn
  · constructor
    · have : s'.top = q := rfl
      rw [this, eq.2.1, lol]
    · have : s'.root = if main then q else s.root := rfl
      rw [this]
      split
      · rw [eq.2.1, lol]
      · rw [(e _ (nf' _ H.rootAl)).2.1]; exact I.rootLo
    · intro n hn h0
      rcases (hA n).1 hn with g | g
      · obtain ⟨e1, e2, e3, e4, e5⟩ := e n (nf' n g); rw [e1] at h0; rw [e5]; exact I.srt n g h0
      · rw [g, eq.2.2, r0]; intro i j hij hj; omega
    · intro n hn h0
      rcases (hA n).1 hn with g | g
      · obtain ⟨e1, e2, e3, e4, e5⟩ := e n (nf' n g); rw [e1] at h0
        rw [e5, e2, (e _ (nf' _ (H.kid n g h0 0 (by omega)).1)).2.1]; exact I.fst n g h0
      · rw [g, eq.2.2, r1, eq.2.1, (e _ hlf).2.1]
    · intro n hn h0 i
      rcases (hA n).1 hn with g | g
      · obtain ⟨e1, e2, e3, e4, e5⟩ := e n (nf' n g); rw [e1] at h0; rw [e5]
        intro hi
        rw [(e _ (nf' _ (H.kid n g h0 (i + 1) (by omega)).1)).2.1]; exact I.key n g h0 i hi
      · rw [g, eq.2.2, r0]; intro hi
        have : i = 0 := by omega
        subst this
        rw [r2, r3, (e _ hyf).2.1]; exact C.ly
    · intro n hn h0 i
      rcases (hA n).1 hn with g | g
      · obtain ⟨e1, e2, e3, e4, e5⟩ := e n (nf' n g); rw [e1] at h0; rw [e5, e2]; exact I.abv n g h0 i
      · rw [g, eq.2.2, r0]; intro hi
        have : i = 0 := by omega
        subst this
        rw [r3, eq.2.1]; exact C.ll
    · intro a b ha hb hh hlo
      rcases (hA a).1 ha with qa | qa <;> rcases (hA b).1 hb with qb | qb
      · rw [(e a (nf' a qa)).1, (e b (nf' b qb)).1] at hh
        rw [(e a (nf' a qa)).2.1, (e b (nf' b qb)).2.1] at hlo
        exact I.uniq a b qa qb hh hlo
      · rw [(e a (nf' a qa)).1, qb, eq.1] at hh; have := tall a qa; omega
      · rw [(e b (nf' b qb)).1, qa, eq.1] at hh; have := tall b qb; omega
      · rw [qa, qb]
    · intro a b ha hb h0 hh hlt
      rcases (hA a).1 ha with qa | qa <;> rcases (hA b).1 hb with qb | qb
      · rw [(e a (nf' a qa)).1] at h0
        rw [(e a (nf' a qa)).1, (e b (nf' b qb)).1] at hh
        rw [(e a (nf' a qa)).2.1, (e b (nf' b qb)).2.1] at hlt
        rw [(e a (nf' a qa)).2.2.2.2, (e b (nf' b qb)).2.1]
        exact I.keys a b qa qb h0 hh hlt
      · rw [(e a (nf' a qa)).1, qb, eq.1] at hh; have := tall a qa; omega
      · rw [(e b (nf' b qb)).1, qa, eq.1] at hh; have := tall b qb; omega
      · rw [qa, qb] at hlt; omega
    · intro n hn h0
      have g := leaf n hn h0
      rw [(e n (nf' n g)).1] at h0
      rw [(e n (nf' n g)).2.2.2.1]; exact I.asc n g h0
    · intro n hn h0
      have g := leaf n hn h0
      rw [(e n (nf' n g)).1] at h0
      rw [(e n (nf' n g)).2.2.2.1, (e n (nf' n g)).2.1]; exact I.bnd n g h0
    · intro a b ha hb ha0 hb0
      have qa := leaf a ha ha0
      have qb := leaf b hb hb0
      rw [(e a (nf' a qa)).1] at ha0
      rw [(e b (nf' b qb)).1] at hb0
      rw [(e a (nf' a qa)).2.1, (e b (nf' b qb)).2.1, (e a (nf' a qa)).2.2.2.1]
      exact I.sep a b qa qb ha0 hb0
    · intro a b ha hb ha0 hb0
      have qa := leaf a ha ha0
      have qb := leaf b hb hb0
      rw [(e a (nf' a qa)).1] at ha0
      rw [(e b (nf' b qb)).1] at hb0
      rw [(e a (nf' a qa)).2.1, (e b (nf' b qb)).2.1, (e a (nf' a qa)).2.2.1]
      intro hlt
      obtain ⟨g1, g2⟩ := I.nx a b qa qb ha0 hb0 hlt
      rw [(e _ (nf' _ (nxy a qa g1))).2.1]; exact ⟨g1, g2⟩
    · intro a ha ha0
      have qa := leaf a ha ha0
      rw [(e a (nf' a qa)).1] at ha0
      rw [(e a (nf' a qa)).2.1, (e a (nf' a qa)).2.2.1]
      intro hn
      rw [(e _ (nf' _ (nxy a qa hn))).2.1]; exact I.nx' a qa ha0 hn
  · show (s'.node c.r).lo = 0; rw [(e _ (nf' _ h1.ar)).2.1]; exact C.lr
  · intro t w
    constructor
    · rintro ⟨z, z1, z2, z3⟩
      have g := leaf z z1 z2
      rw [(e z (nf' z g)).1] at z2
      rw [(e z (nf' z g)).2.2.2.1] at z3
      exact ⟨z, g, z2, z3⟩
    · rintro ⟨z, z1, z2, z3⟩
      exact ⟨z, (hA z).2 (.inl z1), by rw [(e z (nf' z z1)).1]; exact z2, by rw [(e z (nf' z z1)).2.2.2.1]; exact z3⟩

theorem setParents_ver {s t : Heap V} (h : Ver s t) (a : Arr Nat) (q : Nat) : ∀ k, Ver s (setParents t a q k)
  | 0 => h
  | k + 1 => (setParents_ver h a q k).mod _ _ (.of_same rfl rfl rfl)

/-- Split of a full internode. -/
theorem OPost.inode {c : Ctx V} {p idx : Nat} (P : Pre main s (.rechk c p) O B) (I : OInv s) (C : CtxO s c) (hpl : (s.node c.l).parent = p)
    (hidx : findChild (s.node p).arr c.l 0 ((s.node p).arr.nkeys + 1) = some idx) (hfull : ¬ (s.node p).arr.nkeys < inodeWidth)
    (c' : Ctx V) (c1 : c'.l = p) (c2 : c'.y = s.fresh) (c3 : c'.sep = (splitInode s c p idx).2) (c4 : c'.r = c.r) :
    OPost s (.rechk c p) (splitInode s c p idx).1 (.par c') := by
  obtain ⟨h1, h2, h3, hs⟩ := P.ok
  have H := P.H
  have hp0 : 0 < (s.node p).ht := by omega
  obtain ⟨_, i2, i3⟩ := findChild_some hidx
  have hB : ∀ n, n ∈ holds (.rechk c p : Pc V) → (s.node n).arr = (s.node n).base := by
    intro n hn
    refine H.same n (P.K n hn).1 ?_
    rintro (h | h)
    · exact (P.hB _ h).2.2 hn
    · exact h
  have hbp := hB p (by simp [holds])
  have hnk : (s.node p).arr.nkeys = inodeWidth := by have := H.nk p h2; rw [← hbp] at this; omega
  have hix : idx ≤ inodeWidth := by omega
  obtain ⟨S1, S2, S3, S4, S5⟩ := splitInode_spec H h1 h2 h3 (P.K p (by simp [holds])).2 hnk hix hbp i3 (hB c.l (by simp [holds])) (hB c.y (by simp [holds]))
  obtain ⟨x1, x2, x3, x4, x5, x6, x7, x8⟩ := split_spec inodeWidth (s.node p).arr emptyArr idx c.sep c.y (by decide) hnk hix
  have Vt := virt H I h1 C h2 h3 (idx := idx) (by rw [← hbp]; omega) (by rw [← hbp]; exact i3)
  have hW : inodeWidth = 15 := rfl
  have hmid : (inodeWidth + 1) / 2 = 8 := rfl
  have c3 : c'.sep = (splitInto inodeWidth (s.node p).arr emptyArr idx c.sep c.y).2.2.1 := c3
  generalize hx : splitInto inodeWidth (s.node p).arr emptyArr idx c.sep c.y = x at *
  obtain ⟨va, vb, vc, vd, ve⟩ := Vt
  have LA : ∀ j, j ≤ 16 → Al s (vchild (s.node p).arr idx c.y j) := by
    intro j hj
    rcases vchild_cases (s.node p).arr idx c.y j (by omega) (by omega) with ⟨_, g⟩ | ⟨k, k1, k2, _⟩
    · rw [g]; exact h1.ay
    · rw [k2, hbp]; exact (H.kid p h2 hp0 k (by rw [← hbp]; exact k1)).1
  rw [← hbp] at va vb vc vd ve
  rw [hnk] at va vc vd ve
  generalize vkey (s.node p).arr idx c.sep = K at *
  generalize vchild (s.node p).arr idx c.y = L at *
  rw [hmid] at x1 x2 x3 x4 x5 x6 x7 
  rw [hW] at x2 x6 x7 va vc vd ve
  let q := s.fresh
  generalize hs' : (splitInode s c p idx).1 = s' at *
  have hA : ∀ n, Al s' n ↔ Al s n ∨ n = q := by
    intro n
    have := H.topAl.2
    have := H.topAl.1
    simp only [Al, q]; omega
  have nf : ∀ n, Al s n → n ≠ q := by intro n hn; have := hn.2; simp only [q]; omega
  have ht : ∀ n, Al s n → (s'.node n).ht = (s.node n).ht := fun n h => (S4 n (nf n h)).1
  have lo : ∀ n, Al s n → (s'.node n).lo = (s.node n).lo := fun n h => (S4 n (nf n h)).2.1
  have bn : ∀ n, Al s n → n ≠ p → (s'.node n).base = (s.node n).base := fun n h h' => by rw [(S4 n (nf n h)).2.2.1, if_neg h']
  have bp : (s'.node p).base = x.1 := by rw [(S4 p (nf p h2)).2.2.1, if_pos rfl]
  have nx : ∀ n, Al s n → (s'.node n).next = (s.node n).next := fun n h => (S4 n (nf n h)).2.2.2.2.1
  have en : ∀ n, Al s n → (s'.node n).ents = (s.node n).ents := fun n h => (S4 n (nf n h)).2.2.2.2.2.1
  obtain ⟨T1, T2, T3, T4, T5, T6, T7, T8, T9⟩ := S5
  have leaf : ∀ n, Al s' n → (s'.node n).ht = 0 → Al s n := by
    intro n hn hh
    rcases (hA n).1 hn with g | g
    · exact g
    · rw [g, T1] at hh; omega
  have nxy : ∀ n, Al s n → (s.node n).next ≠ 0 → Al s (s.node n).next := by
    intro n h h'
    rcases H.next n h with g | g
    · exact absurd g h'
    · exact g.1
  have T2' : (s'.node q).lo = K 8 := by rw [← x5]; exact T2
  have pq : (s.node p).lo < K 8 := vd 8 (by omega)
  have nb : ∀ b, Al s b → (s.node b).ht = (s.node p).ht → (s.node p).lo < (s.node b).lo → K 8 < (s.node b).lo :=
    fun b hb hh hlt => ve b hb hh hlt 8 (by omega)
  have left : ∀ a, Al s a → (s.node a).ht = (s.node p).ht → a ≠ p → (s.node a).lo < K 8 → (s.node a).lo < (s.node p).lo := by
    intro a ha ha0 hne hlt
    rcases Nat.lt_trichotomy (s.node p).lo (s.node a).lo with q | q | q
    · have := nb a ha ha0 q; omega
    · exact absurd (I.uniq a p ha h2 (by omega) q.symm) hne
    · exact q
  refine ⟨?_, ?_, ?_, ?_, .inr ⟨?_, fun _ _ _ h => by cases h⟩⟩
  · rw [← hs']
    unfold splitInode
    simp only [hx]
    refine (((setParents_ver ?_ _ _ _).mod _ _ (.of_same rfl rfl rfl)).mod _ _ (.unlock _)).mod _ _ (.unlock _)
    intro n hn
    have := nf n hn
    simp only [upd, q] at this ⊢
    rw [if_neg this]
    split
    · rename_i g; subst g; exact .of_locked rfl (P.K n (by simp [holds])).2
    · exact .refl _
  · intro z hz hz'
    rcases (hA z).1 hz with g | g
    · exact absurd g hz'
    · right
      refine ⟨p, h2, by simp [holds, c1], by rw [g, T1], by rw [g, T2']; exact pq, ?_⟩
      intro b hb hh hlt; rw [g, T2']; exact nb b hb hh hlt
  · constructor
    · rw [S3, lo _ H.topAl]; exact I.topLo
    · rw [S2, lo _ H.rootAl]; exact I.rootLo
    · intro n hn h0
      rcases (hA n).1 hn with g | g
      · rw [ht n g] at h0
        by_cases e : n = p
        · subst e; rw [bp, x1]; intro i j hij hj; rw [x3 i (by omega), x3 j (by omega)]; exact va i j hij (by omega)
        · rw [bn n g e]; exact I.srt n g h0
      · rw [g, T3, x2]; intro i j hij hj; rw [x6 i (by omega), x6 j (by omega)]; exact va _ _ (by omega) (by omega)
    · intro n hn h0
      rcases (hA n).1 hn with g | g
      · rw [ht n g] at h0
        rw [lo n g]
        by_cases e : n = p
        · subst e; rw [bp, x4 0 (by omega), lo _ (LA 0 (by omega))]; exact vb
        · rw [bn n g e, lo _ (H.kid n g h0 0 (by omega)).1]; exact I.fst n g h0
      · rw [g, T3, x7 0 (by omega), lo _ (LA _ (by omega)), T2']; exact vc 8 (by omega)
    · intro n hn h0
      rcases (hA n).1 hn with g | g
      · rw [ht n g] at h0
        by_cases e : n = p
        · subst e; rw [bp, x1]; intro i hi; rw [x3 i (by omega), x4 (i + 1) (by omega), lo _ (LA _ (by omega))]; exact vc i (by omega)
        · rw [bn n g e]; intro i hi; rw [lo _ (H.kid n g h0 (i + 1) (by omega)).1]; exact I.key n g h0 i hi
      · rw [g, T3, x2]; intro i hi; rw [x6 i (by omega), x7 (i + 1) (by omega), lo _ (LA _ (by omega))]; exact vc (8 + 1 + i) (by omega)
    · intro n hn h0
      rcases (hA n).1 hn with g | g
      · rw [ht n g] at h0
        rw [lo n g]
        by_cases e : n = p
        · subst e; rw [bp, x1]; intro i hi; rw [x3 i (by omega)]; exact vd i (by omega)
        · rw [bn n g e]; exact I.abv n g h0
      · rw [g, T3, x2, T2']; intro i hi; rw [x6 i (by omega)]; exact va 8 _ (by omega) (by omega)
    · intro a b ha hb hh hlo
      rcases (hA a).1 ha with qa | qa <;> rcases (hA b).1 hb with qb | qb
      · rw [ht a qa, ht b qb] at hh
        rw [lo a qa, lo b qb] at hlo
        exact I.uniq a b qa qb hh hlo
      · rw [ht a qa, qb, T1] at hh
        rw [lo a qa, qb, T2'] at hlo
        rcases Nat.lt_trichotomy (s.node p).lo (s.node a).lo with e | e | e
        · have := nb a qa hh e; omega
        · omega
        · omega
      · rw [ht b qb, qa, T1] at hh
        rw [lo b qb, qa, T2'] at hlo
        rcases Nat.lt_trichotomy (s.node p).lo (s.node b).lo with e | e | e
        · have := nb b qb hh.symm e; omega
        · omega
        · omega
      · rw [qa, qb]
    · intro a b ha hb h0 hh hlt i
      rcases (hA a).1 ha with qa | qa
      · rw [ht a qa] at h0 hh
        rw [lo a qa] at hlt
        by_cases e : a = p
        · subst e
          rw [bp, x1]; intro hi; rw [x3 i (by omega)]
          rcases (hA b).1 hb with qb | qb
          · rw [ht b qb] at hh; rw [lo b qb] at hlt ⊢; exact ve b qb hh.symm hlt i (by omega)
          · rw [qb, T2']; exact va i 8 (by omega) (by omega)
        · rw [bn a qa e]; intro hi
          rcases (hA b).1 hb with qb | qb
          · rw [ht b qb] at hh; rw [lo b qb] at hlt ⊢; exact I.keys a b qa qb h0 hh hlt i hi
          · rw [qb, T1] at hh
            rw [qb, T2'] at hlt ⊢
            have := I.keys a p qa h2 h0 hh (left a qa hh e hlt) i hi
            omega
      · rw [qa, T1] at hh
        rw [qa, T2'] at hlt
        rw [qa, T3, x2]; intro hi; rw [x6 i (by omega)]
        rcases (hA b).1 hb with qb | qb
        · rw [ht b qb] at hh; rw [lo b qb] at hlt ⊢; exact ve b qb hh.symm (by omega) _ (by omega)
        · rw [qb, T2'] at hlt; omega
    · intro n hn h0
      have g := leaf n hn h0
      rw [ht n g] at h0
      rw [en n g]; exact I.asc n g h0
    · intro n hn h0
      have g := leaf n hn h0
      rw [ht n g] at h0
      rw [en n g, lo n g]; exact I.bnd n g h0
    · intro a b ha hb ha0 hb0
      have qa := leaf a ha ha0
      have qb := leaf b hb hb0
      rw [ht a qa] at ha0
      rw [ht b qb] at hb0
      rw [lo a qa, lo b qb, en a qa]
      exact I.sep a b qa qb ha0 hb0
    · intro a b ha hb ha0 hb0
      have qa := leaf a ha ha0
      have qb := leaf b hb hb0
      rw [ht a qa] at ha0
      rw [ht b qb] at hb0
      rw [lo a qa, lo b qb, nx a qa]
      intro hlt
      obtain ⟨g1, g2⟩ := I.nx a b qa qb ha0 hb0 hlt
      rw [lo _ (nxy a qa g1)]; exact ⟨g1, g2⟩
    · intro a ha ha0
      have qa := leaf a ha ha0
      rw [ht a qa] at ha0
      rw [lo a qa, nx a qa]
      intro hn
      rw [lo _ (nxy a qa hn)]; exact I.nx' a qa ha0 hn
  · refine ⟨?_, ?_, ?_, ?_⟩
    · rw [c2, c3]; exact T2
    · rw [c1, lo p h2, c3, x5]; exact pq
    · intro z hz hh hne hlt
      rw [c1, ht p h2] at hh
      rw [c1, lo p h2] at hlt
      rw [c3, x5]
      rcases (hA z).1 hz with g | g
      · rw [ht z g] at hh
        rw [lo z g] at hlt ⊢
        exact nb z g hh hlt
      · exact absurd (by rw [g, c2]) hne
    · rw [c4, lo _ h1.ar]; exact C.lr
  · intro t w
    constructor
    · rintro ⟨z, z1, z2, z3⟩
      have g := leaf z z1 z2
      rw [ht z g] at z2
      rw [en z g] at z3
      exact ⟨z, g, z2, z3⟩
    · rintro ⟨z, z1, z2, z3⟩
      exact ⟨z, (hA z).2 (.inl z1), by rw [ht z z1]; exact z2, by rw [en z z1]; exact z3⟩
end
end Verif.Index
