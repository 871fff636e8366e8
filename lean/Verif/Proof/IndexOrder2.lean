import Verif.Proof.IndexOrder
set_option linter.unusedSimpArgs false
set_option linter.unusedVariables false
/-! The order of keys after each step that changes it. -/
namespace Verif.Index
open Verif.Internode
variable {V : Type}

section
variable {main : Bool} {s : Heap V} {O B : Nat → Prop}

/-- Steps that only read. -/
theorem OPost.read {c c' : Pc V} (I : OInv s) (hd : ∀ t v x, c' = .done (.insert t v) x → c = c') (ok : ROk s c') : OPost s c s c' :=
  ⟨Ver.refl s, New.same rfl, I, ok, .inr ⟨fun _ _ => Iff.rfl, hd⟩⟩

theorem take_drop_mem {l : List (Nat × V)} (k : Nat) {e : Nat × V} : e ∈ l ↔ e ∈ l.take k ∨ e ∈ l.drop k := by
  rw [← List.mem_append, List.take_append_drop]

theorem take_lt_drop {l : List (Nat × V)} (h : Asc l) (k : Nat) : ∀ a, a ∈ l.take k → ∀ b, b ∈ l.drop k → a.1 < b.1 := by
  have h' : Asc (l.take k ++ l.drop k) := by rw [List.take_append_drop]; exact h
  exact fun a ha b hb => (List.pairwise_append.1 h').2.2 a ha b hb

theorem firstKey_mem : ∀ {l : List (Nat × V)}, l ≠ [] → ∃ e, e ∈ l ∧ e.1 = firstKey l
  | [], h => absurd rfl h
  | e :: _, _ => ⟨e, by simp, rfl⟩

theorem firstKey_le : ∀ {l : List (Nat × V)}, Asc l → ∀ e, e ∈ l → firstKey l ≤ e.1
  | [], _, e, h => by simp at h
  | x :: xs, hs, e, h => by
    rcases List.mem_cons.1 h with g | g
    · rw [g]; exact Nat.le_refl _
    · exact Nat.le_of_lt ((List.pairwise_cons.1 hs).1 e g)

/-- Storing an entry in a leaf. -/
theorem OPost.put' {t : Nat} {v : V} {r l : Nat} (h2 : Al s l) (h3 : (s.node l).ht = 0) (I : OInv s)
    (r2 : (s.node l).lo ≤ t) (hl : (s.node l).locked = false)
    (hn : ¬ ((s.node l).next ≠ 0 ∧ (s.node (s.node l).next).lo ≤ t)) :
    OPost s (.sect (.insert t v) r l) (s.mod l (fun n => ({ n.lock with ents := put t v n.ents } : Node V).unlock))
      (.done (.insert t v) (lookup t (s.node l).ents)) := by
  let s' := s.mod l (fun n => ({ n.lock with ents := Index.put t v n.ents } : Node V).unlock)
  have e : ∀ n, (s'.node n).ht = (s.node n).ht ∧ (s'.node n).lo = (s.node n).lo ∧ (s'.node n).next = (s.node n).next ∧
      (s'.node n).ents = (if n = l then Index.put t v (s.node l).ents else (s.node n).ents) ∧
      (0 < (s.node n).ht → (s'.node n).base = (s.node n).base) := by
    intro n
    simp only [s', mod_node]
    by_cases c : n = l
    · subst c; simp [Node.lock, h3]
    · simp [c]
  have A : ∀ n, Al s' n = Al s n := fun n => rfl
  have above : ∀ b, Al s b → (s.node b).ht = 0 → (s.node l).lo < (s.node b).lo → t < (s.node b).lo := by
    intro b hb hb0 hlt
    obtain ⟨g1, g2⟩ := I.nx l b h2 hb h3 hb0 hlt
    have : ¬ (s.node (s.node l).next).lo ≤ t := fun g => hn ⟨g1, g⟩
    omega
  have only : ∀ z, Al s z → (s.node z).ht = 0 → ∀ w, (t, w) ∈ (s.node z).ents → z = l := by
    intro z hz hz0 w hm
    rcases I.here h2 h3 r2 hz hz0 hm with g | ⟨g1, g2⟩
    · exact g
    · have := above z hz hz0 g1; omega
  have pm := fun x => put_mem (t := t) (v := v) (e := x) (I.asc l h2 h3)
  show OPost s _ s' _
  refine ⟨?_, New.same rfl, ?_, trivial, .inl ⟨r, l, t, v, _, rfl, rfl, ?_, ?_⟩⟩
  · exact (Ver.refl s).mod l _ (NVer.trans (b := ({ (s.node l).lock with ents := Index.put t v (s.node l).ents } : Node V)) (.of_locked rfl rfl) (.unlock _))
  · constructor
    · rw [(e _).2.1]; exact I.topLo
    · rw [(e _).2.1]; exact I.rootLo
    · intro n hn h0; obtain ⟨e1, e2, e3, e4, e5⟩ := e n; rw [e1] at h0; rw [e5 h0]; exact I.srt n hn h0
    · intro n hn h0; obtain ⟨e1, e2, e3, e4, e5⟩ := e n; rw [e1] at h0; rw [e5 h0, (e _).2.1, e2]; exact I.fst n hn h0
    · intro n hn h0; obtain ⟨e1, e2, e3, e4, e5⟩ := e n; rw [e1] at h0; rw [e5 h0]
      intro i hi; rw [(e _).2.1]; exact I.key n hn h0 i hi
    · intro n hn h0; obtain ⟨e1, e2, e3, e4, e5⟩ := e n; rw [e1] at h0; rw [e5 h0, e2]; exact I.abv n hn h0
    · intro a b ha hb; rw [(e a).1, (e b).1, (e a).2.1, (e b).2.1]; exact I.uniq a b ha hb
    · intro a b ha hb h0; rw [(e a).1] at h0
      rw [(e a).1, (e b).1, (e a).2.1, (e b).2.1, (e a).2.2.2.2 h0]; exact I.keys a b ha hb h0
    · intro n hn h0
      rw [(e n).1] at h0; rw [(e n).2.2.2.1]
      split
      · exact put_asc (I.asc l h2 h3)
      · exact I.asc n hn h0
    · intro n hn h0
      rw [(e n).1] at h0; rw [(e n).2.2.2.1, (e n).2.1]
      intro x hx
      split at hx
      · rename_i c; subst c
        rcases (pm x).1 hx with g | ⟨g, _⟩
        · rw [g]; exact r2
        · exact I.bnd n hn h0 x g
      · exact I.bnd n hn h0 x hx
    · intro a b ha hb h0 hb0 hlt x hx
      rw [(e _).1] at h0 hb0
      rw [(e _).2.1, (e _).2.1] at hlt
      rw [(e _).2.1]
      rw [(e _).2.2.2.1] at hx
      split at hx
      · rename_i c; subst c
        rcases (pm x).1 hx with g | ⟨g, _⟩
        · rw [g]; exact above b hb hb0 hlt
        · exact I.sep a b ha hb h0 hb0 hlt x g
      · exact I.sep a b ha hb h0 hb0 hlt x hx
    · intro a b ha hb
      rw [(e a).1, (e b).1, (e a).2.1, (e b).2.1, (e a).2.2.1, (e _).2.1]; exact I.nx a b ha hb
    · intro a ha
      rw [(e a).1, (e a).2.1, (e a).2.2.1, (e _).2.1]; exact I.nx' a ha
  · intro w
    constructor
    · intro h; exact ⟨l, h2, h3, lookup_mem h⟩
    · rintro ⟨z, z1, z2, z3⟩
      have := only z z1 z2 w z3; subst this
      exact mem_lookup (I.asc z h2 h3) z3
  · intro t' w
    constructor
    · rintro ⟨z, z1, z2, z3⟩
      rw [(e z).1] at z2
      rw [(e z).2.2.2.1] at z3
      split at z3
      · rename_i c; subst c
        rcases (pm _).1 z3 with g | ⟨g, g'⟩
        · injection g with g1 g2; rw [if_pos g1, g2]
        · rw [if_neg g']; exact ⟨z, z1, z2, g⟩
      · rename_i c
        split
        · rename_i c2; subst c2; exact absurd (only z z1 z2 w z3) c
        · exact ⟨z, z1, z2, z3⟩
    · intro h
      split at h
      · rename_i c; subst c; subst h
        refine ⟨l, h2, by rw [(e l).1]; exact h3, ?_⟩
        rw [(e l).2.2.2.1, if_pos rfl]
        exact (pm _).2 (.inl rfl)
      · rename_i c
        obtain ⟨z, z1, z2, z3⟩ := h
        refine ⟨z, z1, by rw [(e z).1]; exact z2, ?_⟩
        rw [(e z).2.2.2.1]
        split
        · rename_i c2; subst c2; exact (pm _).2 (.inr ⟨z3, c⟩)
        · exact z3

theorem OPost.put {t : Nat} {v : V} {r l : Nat} (P : Pre main s (.sect (.insert t v) r l) O B) (I : OInv s)
    (R : ROk s (.sect (.insert t v) r l)) (hl : (s.node l).locked = false)
    (hn : ¬ ((s.node l).next ≠ 0 ∧ (s.node (s.node l).next).lo ≤ t)) :
    OPost s (.sect (.insert t v) r l) (s.mod l (fun n => ({ n.lock with ents := put t v n.ents } : Node V).unlock))
      (.done (.insert t v) (lookup t (s.node l).ents)) :=
  OPost.put' P.ok.2.1 P.ok.2.2.1 I R.2 hl hn

/-- Split of a leaf. -/
theorem OPost.leaf {t : Nat} {v : V} {r l : Nat} (P : Pre main s (.sect (.insert t v) r l) O B) (I : OInv s)
    (R : ROk s (.sect (.insert t v) r l)) (hl : (s.node l).locked = false) (hfull : ¬ (s.node l).ents.length < leafWidth) (c : Ctx V)
    (c1 : c.l = l) (c2 : c.y = s.fresh) (c3 : c.sep = firstKey ((s.node l).ents.drop (leafWidth / 2))) (c4 : c.r = r) :
    OPost s (.sect (.insert t v) r l) (splitLeaf s l) (.par c) := by
  obtain ⟨h1, h2, h3, _⟩ := P.ok
  obtain ⟨r1, r2⟩ := R
  have H := P.H
  let E := (s.node l).ents
  let k := leafWidth / 2
  let y := s.fresh
  have hlf : l ≠ y := by have := h2.2; omega
  let s' := splitLeaf s l
  have ey : (s'.node y).ht = 0 ∧ (s'.node y).lo = firstKey (E.drop k) ∧ (s'.node y).ents = E.drop k ∧ (s'.node y).next = (s.node l).next := by
    simp [s', splitLeaf, y, upd, E, k]
  have el : (s'.node l).ents = E.take k ∧ (s'.node l).next = y := by
    simp only [s', splitLeaf, upd]
    rw [if_neg hlf]; simp [E, k, y]
  have e : ∀ n, n ≠ y → (s'.node n).ht = (s.node n).ht ∧ (s'.node n).lo = (s.node n).lo ∧ (s'.node n).base = (s.node n).base ∧
      (n ≠ l → (s'.node n).ents = (s.node n).ents ∧ (s'.node n).next = (s.node n).next) := by
    intro n hn
    simp only [s', splitLeaf, upd, y] at hn ⊢
    rw [if_neg hn]
    by_cases c : n = l
    · subst c; simp
    · simp [c]
  have hA : ∀ n, Al s' n ↔ Al s n ∨ n = y := by
    intro n
    have : s'.fresh = s.fresh + 1 := rfl
    have := H.topAl.2
    have := H.topAl.1
    simp only [Al, y]; omega
  have ny : ∀ n, Al s n → n ≠ y := by intro n hn; have := hn.2; simp only [y]; omega
  have nxy : ∀ n, Al s n → (s.node n).next ≠ 0 → Al s (s.node n).next := by
    intro n h h'
    rcases H.next n h with g | g
    · exact absurd g h'
    · exact g.1
  have asc := I.asc l h2 h3
  have hlen : 24 ≤ E.length := by simp only [leafWidth, Nat.not_lt] at hfull; exact hfull
  have hk : k = 12 := rfl
  have dne : E.drop k ≠ [] := by
    intro g; have := congrArg List.length g; rw [hk] at this; simp at this; omega
  have tne : E.take k ≠ [] := by
    intro g; have := congrArg List.length g; rw [hk, List.length_take, List.length_nil] at this; omega
  have ascD : Asc (E.drop k) := List.Pairwise.sublist (List.drop_sublist _ _) asc
  have ascT : Asc (E.take k) := List.Pairwise.sublist (List.take_sublist _ _) asc
  obtain ⟨f, f1, f2⟩ := firstKey_mem dne
  obtain ⟨g, g1, g2⟩ := firstKey_mem tne
  have fE : f ∈ (s.node l).ents := (take_drop_mem k).2 (.inr f1)
  have gE : g ∈ (s.node l).ents := (take_drop_mem k).2 (.inl g1)
  have loy : (s'.node y).lo = f.1 := by rw [ey.2.1, f2]
  have lly : (s.node l).lo < f.1 := Nat.lt_of_le_of_lt (I.bnd l h2 h3 g gE) (take_lt_drop asc k g g1 f f1)
  have nb : ∀ b, Al s b → (s.node b).ht = 0 → (s.node l).lo < (s.node b).lo → f.1 < (s.node b).lo := 
    fun b hb hb0 hlt => I.sep l b h2 hb h3 hb0 hlt f fE
  have left : ∀ a, Al s a → (s.node a).ht = 0 → a ≠ l → (s.node a).lo < f.1 → (s.node a).lo < (s.node l).lo := by
    intro a ha ha0 hne hlt
    rcases Nat.lt_trichotomy (s.node l).lo (s.node a).lo with q | q | q
    · have := nb a ha ha0 q; omega
    · exact absurd (I.uniq a l ha h2 (by omega) q.symm) hne
    · exact q
  show OPost s _ s' _
  refine ⟨?_, ?_, ?_, ?_, .inr ⟨?_, ?_⟩⟩
  · intro n hn
    have := ny n hn
    simp only [s', splitLeaf, upd, y] at this ⊢
    rw [if_neg this]
    split
    · rename_i q; subst q; exact .of_locked rfl rfl
    · exact .refl _
  · intro z hz hz'
    rcases (hA z).1 hz with q | q
    · exact absurd q hz'
    · right
      subst q
      refine ⟨l, h2, by simp [holds, c1], ?_, ?_, ?_⟩
      · rw [ey.1, h3]
      · rw [loy]; exact lly
      · intro b hb hb0 hlt; rw [loy]; rw [h3] at hb0; exact nb b hb hb0 hlt
  · constructor
    · have : s'.top = s.top := rfl
      rw [this, (e _ (ny _ H.topAl)).2.1]; exact I.topLo
    · have : s'.root = s.root := rfl
      rw [this, (e _ (ny _ H.rootAl)).2.1]; exact I.rootLo
    · intro n hn h0
      rcases (hA n).1 hn with q | q
      · obtain ⟨e1, e2, e3, _⟩ := e n (ny n q); rw [e1] at h0; rw [e3]; exact I.srt n q h0
      · rw [q, ey.1] at h0; cases h0
    · intro n hn h0
      rcases (hA n).1 hn with q | q
      · obtain ⟨e1, e2, e3, _⟩ := e n (ny n q); rw [e1] at h0
        rw [e3, e2, (e _ (ny _ (H.kid n q h0 0 (by omega)).1)).2.1]; exact I.fst n q h0
      · rw [q, ey.1] at h0; cases h0
    · intro n hn h0
      rcases (hA n).1 hn with q | q
      · obtain ⟨e1, e2, e3, _⟩ := e n (ny n q); rw [e1] at h0; rw [e3]
        intro i hi
        rw [(e _ (ny _ (H.kid n q h0 (i + 1) (by omega)).1)).2.1]; exact I.key n q h0 i hi
      · rw [q, ey.1] at h0; cases h0
    · intro n hn h0
      rcases (hA n).1 hn with q | q
      · obtain ⟨e1, e2, e3, _⟩ := e n (ny n q); rw [e1] at h0; rw [e3, e2]; exact I.abv n q h0
      · rw [q, ey.1] at h0; cases h0
    · intro a b ha hb hh hlo
      rcases (hA a).1 ha with qa | qa <;> rcases (hA b).1 hb with qb | qb
      · rw [(e a (ny a qa)).1, (e b (ny b qb)).1] at hh
        rw [(e a (ny a qa)).2.1, (e b (ny b qb)).2.1] at hlo
        exact I.uniq a b qa qb hh hlo
      · subst qb
        rw [(e a (ny a qa)).1, ey.1] at hh
        rw [(e a (ny a qa)).2.1, loy] at hlo
        rcases Nat.lt_trichotomy (s.node l).lo (s.node a).lo with q | q | q
        · have := nb a qa hh q; omega
        · omega
        · omega
      · subst qa
        rw [(e b (ny b qb)).1, ey.1] at hh
        rw [(e b (ny b qb)).2.1, loy] at hlo
        rcases Nat.lt_trichotomy (s.node l).lo (s.node b).lo with q | q | q
        · have := nb b qb hh.symm q; omega
        · omega
        · omega
      · rw [qa, qb]
    · intro a b ha hb h0 hh hlt
      rcases (hA a).1 ha with qa | qa
      · rcases (hA b).1 hb with qb | qb
        · obtain ⟨e1, e2, e3, _⟩ := e a (ny a qa)
          rw [e1] at h0 hh; rw [(e b (ny b qb)).1] at hh
          rw [e2, (e b (ny b qb)).2.1] at hlt
          rw [e3, (e b (ny b qb)).2.1]; exact I.keys a b qa qb h0 hh hlt
        · rw [qb, ey.1] at hh; omega
      · rw [qa, ey.1] at h0; cases h0
    · intro n hn h0
      rcases (hA n).1 hn with q | q
      · rw [(e n (ny n q)).1] at h0
        by_cases c : n = l
        · rw [c, el.1]; exact ascT
        · rw [((e n (ny n q)).2.2.2 c).1]; exact I.asc n q h0
      · rw [q, ey.2.2.1]; exact ascD
    · intro n hn h0 x hx
      rcases (hA n).1 hn with q | q
      · rw [(e n (ny n q)).1] at h0
        rw [(e n (ny n q)).2.1]
        by_cases c : n = l
        · subst c; rw [el.1] at hx; exact I.bnd n q h0 x ((take_drop_mem k).2 (.inl hx))
        · rw [((e n (ny n q)).2.2.2 c).1] at hx; exact I.bnd n q h0 x hx
      · subst q; rw [ey.2.2.1] at hx; rw [ey.2.1]; exact firstKey_le ascD x hx
    · intro a b ha hb h0 hb0 hlt x hx
      rcases (hA a).1 ha with qa | qa
      · rw [(e a (ny a qa)).1] at h0
        rw [(e a (ny a qa)).2.1] at hlt
        have hx' : x ∈ (s.node a).ents ∧ (a = l → x ∈ E.take k) := by
          by_cases c : a = l
          · subst c; rw [el.1] at hx; exact ⟨(take_drop_mem k).2 (.inl hx), fun _ => hx⟩
          · rw [((e a (ny a qa)).2.2.2 c).1] at hx; exact ⟨hx, fun h => absurd h c⟩
        rcases (hA b).1 hb with qb | qb
        · rw [(e b (ny b qb)).1] at hb0
          rw [(e b (ny b qb)).2.1] at hlt ⊢
          exact I.sep a b qa qb h0 hb0 hlt x hx'.1
        · subst qb
          rw [loy] at hlt ⊢
          by_cases c : a = l
          · exact take_lt_drop asc k x (hx'.2 c) f f1
          · have q := left a qa h0 c hlt
            have := I.sep a l qa h2 h0 h3 q x hx'.1
            omega
      · subst qa
        rw [ey.2.2.1] at hx
        rw [loy] at hlt
        rcases (hA b).1 hb with qb | qb
        · rw [(e b (ny b qb)).1] at hb0
          rw [(e b (ny b qb)).2.1] at hlt ⊢
          exact I.sep l b h2 qb h3 hb0 (by omega) x ((take_drop_mem k).2 (.inr hx))
        · rw [qb, loy] at hlt; omega
    · intro a b ha hb h0 hb0 hlt
      rcases (hA a).1 ha with qa | qa
      · rw [(e a (ny a qa)).1] at h0
        rw [(e a (ny a qa)).2.1] at hlt
        by_cases c : a = l
        · subst c
          rw [el.2]
          refine ⟨by have := H.topAl.2; simp only [y]; omega, ?_⟩
          rcases (hA b).1 hb with qb | qb
          · rw [(e b (ny b qb)).1] at hb0
            rw [(e b (ny b qb)).2.1] at hlt ⊢
            rw [loy]; exact Nat.le_of_lt (nb b qb hb0 hlt)
          · rw [qb]; exact Nat.le_refl _
        · rw [((e a (ny a qa)).2.2.2 c).2]
          have key : ∃ z, Al s z ∧ (s.node z).ht = 0 ∧ (s.node a).lo < (s.node z).lo ∧ (s.node z).lo ≤ (s'.node b).lo := by
            rcases (hA b).1 hb with qb | qb
            · rw [(e b (ny b qb)).1] at hb0
              rw [(e b (ny b qb)).2.1] at hlt ⊢
              exact ⟨b, qb, hb0, hlt, Nat.le_refl _⟩
            · subst qb; rw [loy] at hlt ⊢; exact ⟨l, h2, h3, left a qa h0 c hlt, by omega⟩
          obtain ⟨z, z1, z2, z3, z4⟩ := key
          obtain ⟨q1, q2⟩ := I.nx a z qa z1 h0 z2 z3
          refine ⟨q1, ?_⟩
          rw [(e _ (ny _ (nxy a qa q1))).2.1]; omega
      · subst qa
        rw [loy] at hlt
        rw [ey.2.2.2]
        rcases (hA b).1 hb with qb | qb
        · rw [(e b (ny b qb)).1] at hb0
          rw [(e b (ny b qb)).2.1] at hlt ⊢
          obtain ⟨q1, q2⟩ := I.nx l b h2 qb h3 hb0 (by omega)
          refine ⟨q1, ?_⟩
          rw [(e _ (ny _ (nxy l h2 q1))).2.1]; exact q2
        · rw [qb, loy] at hlt; omega
    · intro a ha h0 hnx
      rcases (hA a).1 ha with qa | qa
      · rw [(e a (ny a qa)).1] at h0
        rw [(e a (ny a qa)).2.1]
        by_cases c : a = l
        · subst c; rw [el.2, loy]; exact lly
        · rw [((e a (ny a qa)).2.2.2 c).2] at hnx ⊢
          rw [(e _ (ny _ (nxy a qa hnx))).2.1]; exact I.nx' a qa h0 hnx
      · subst qa
        rw [ey.2.2.2] at hnx ⊢
        have q := nxy l h2 hnx
        rw [loy, (e _ (ny _ q)).2.1]
        refine nb _ q ?_ (I.nx' l h2 h3 hnx)
        rcases H.next l h2 with z | z
        · exact absurd z hnx
        · exact z.2
  · refine ⟨?_, ?_, ?_, ?_⟩
    · rw [c2, c3]; exact ey.2.1
    · rw [c1, (e l hlf).2.1, c3]; show _ < firstKey (E.drop k); rw [← f2]; exact lly
    · intro z hz hh hne hlt
      rw [c1, (e l hlf).1, h3] at hh
      rw [c1, (e l hlf).2.1] at hlt
      rcases (hA z).1 hz with q | q
      · rw [(e z (ny z q)).1] at hh
        rw [(e z (ny z q)).2.1] at hlt ⊢
        rw [c3]; show firstKey (E.drop k) < _; rw [← f2]; exact nb z q hh hlt
      · exact absurd (by rw [q, c2]) hne
    · rw [c4, (e r (ny r h1)).2.1]; exact r1
  · intro t w
    constructor
    · rintro ⟨z, z1, z2, z3⟩
      rcases (hA z).1 z1 with q | q
      · by_cases e1 : z = l
        · subst e1; rw [el.1] at z3; exact ⟨z, q, h3, (take_drop_mem k).2 (.inl z3)⟩
        · rw [((e z (ny z q)).2.2.2 e1).1] at z3
          rw [(e z (ny z q)).1] at z2
          exact ⟨z, q, z2, z3⟩
      · subst q; rw [ey.2.2.1] at z3; exact ⟨l, h2, h3, (take_drop_mem k).2 (.inr z3)⟩
    · rintro ⟨z, z1, z2, z3⟩
      by_cases e1 : z = l
      · subst e1
        rcases (take_drop_mem k).1 z3 with q | q
        · exact ⟨z, (hA z).2 (.inl z1), by rw [(e z (ny z z1)).1]; exact h3, by rw [el.1]; exact q⟩
        · exact ⟨y, (hA y).2 (.inr rfl), ey.1, by rw [ey.2.2.1]; exact q⟩
      · exact ⟨z, (hA z).2 (.inl z1), by rw [(e z (ny z z1)).1]; exact z2, by rw [((e z (ny z z1)).2.2.2 e1).1]; exact z3⟩
  · intro t v x h; cases h
end
end Verif.Index
