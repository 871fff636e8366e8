import Verif.Spec.Clean
import Verif.Proof.TreeRace
import Verif.Proof.StoreSim
set_option linter.unusedSimpArgs false
set_option linter.unusedVariables false
/-!
# What leaves store of long keys
-/
namespace Verif.Tree
open Verif.Spec (Bytes)
open Verif.Internode (Arr upd upd_same upd_ne)
open Verif.Perm (size get back backAtOffset insertFromBack swapFreeSlots setSize makeSorted24 params24)
open Verif.Store (permOK_swap findAlt_spec)
variable {V : Type}

/-- Invariant of a leaf. -/
structure CB (b : Leaf V) : Prop where
  perm : PermOK b.perm
  clean : CleanLeaf b

/-- Invariant of a tree. -/
structure CT (t : Tree V) : Prop where
  body : ∀ p, CB (t.body p)
  top : ∀ p, t.fresh ≤ p → t.kind p = none
  rest : ∀ p, t.fresh ≤ p → ∀ s, (t.body p).ksuf s = none

theorem NoOverwrite.refl (t : Tree V) : NoOverwrite t t := fun _ _ _ h => .inr h

theorem NoOverwrite.trans {a b c : Tree V} (h : NoOverwrite a b) (g : NoOverwrite b c)
    (hm : ∀ p s x, (b.body p).ksuf s = none → (c.body p).ksuf s = some x → (a.body p).ksuf s = none) : NoOverwrite a c := by
  intro p s x hx
  rcases g p s x hx with e | e
  · exact .inl (hm p s x e hx)
  · exact h p s x e

/-! ## Leaves -/

theorem cb_empty : CB (emptyLeaf : Leaf V) := by
  refine ⟨permOK_initial, fun s => ⟨fun h => absurd rfl h, ?_⟩⟩
  rintro ⟨⟨i, hi, -⟩, -⟩
  have : size 5 (emptyLeaf : Leaf V).perm = 0 := size_initial
  omega

theorem used_insert {b nb : Leaf V} (hb : PermOK b.perm) (hs : size 5 b.perm < 24) {pos : Nat} (hp : pos ≤ size 5 b.perm)
    (hperm : nb.perm = (insertFromBack 5 24 b.perm pos).1) (x : Nat) : Used nb x ↔ Used b x ∨ x = back 5 24 b.perm := by
  have hsz := Verif.Perm.size_insertFromBack params24 b.perm (i := pos) (by omega) hs
  have hg := fun k (hk : k < 24) => Verif.Perm.get_insertFromBack params24 b.perm (i := pos) (by omega) hk hs
  have hbk : back 5 24 b.perm = get 5 b.perm 23 := rfl
  unfold Used
  rw [hperm, hsz]
  constructor
  · rintro ⟨k, hk, rfl⟩
    rw [hg k (by omega)]
    split
    · exact .inl ⟨k, by omega, rfl⟩
    · split
      · exact .inr rfl
      · exact .inl ⟨k - 1, by omega, rfl⟩
  · rintro (⟨k, hk, rfl⟩ | rfl)
    · by_cases hkp : k < pos
      · exact ⟨k, by omega, by rw [hg k (by omega), if_pos hkp]⟩
      · exact ⟨k + 1, by omega, by rw [hg (k + 1) (by omega), if_neg (by omega), if_neg (by omega)]; rfl⟩
    · exact ⟨pos, by omega, by rw [hg pos (by omega), if_neg (by omega), if_pos rfl]; rfl⟩

theorem used_swap {b nb : Leaf V} (hs : size 5 b.perm < 24) {off : Nat} (ho : off < 24 - size 5 b.perm)
    (hperm : nb.perm = swapFreeSlots 5 b.perm 23 (23 - off)) (x : Nat) : Used nb x ↔ Used b x := by
  have hsz : size 5 (swapFreeSlots 5 b.perm 23 (23 - off)) = size 5 b.perm := by
    rw [Verif.Perm.swapFreeSlots_eq_exchange, Verif.Perm.size_exchange params24]
  have hg : ∀ k, k < 24 → get 5 (swapFreeSlots 5 b.perm 23 (23 - off)) k =
      if k = 23 then get 5 b.perm (23 - off) else if k = 23 - off then get 5 b.perm 23 else get 5 b.perm k := by
    intro k hk
    rw [Verif.Perm.swapFreeSlots_eq_exchange, Verif.Perm.get_exchange params24 _ (by omega) (by omega) hk]
  unfold Used
  rw [hperm, hsz]
  constructor
  · rintro ⟨k, hk, e⟩
    rw [hg k (by omega), if_neg (by omega), if_neg (by omega)] at e
    exact ⟨k, hk, e⟩
  · rintro ⟨k, hk, e⟩
    exact ⟨k, hk, by rw [hg k (by omega), if_neg (by omega), if_neg (by omega)]; exact e⟩

theorem free_unused {b : Leaf V} (hb : PermOK b.perm) {off : Nat} (ho : off < 24 - size 5 b.perm) : ¬ Used b (get 5 b.perm (23 - off)) := by
  rintro ⟨k, hk, e⟩
  have := hb.size_le
  have := hb.inj k (23 - off) (by omega) (by omega) e
  omega

theorem CB.unused {b : Leaf V} (h : CB b) {s : Nat} (hs : ¬ Used b s) : b.ksuf s = none := by
  by_contra c
  exact hs ((h.clean s).1 c).1

/-- An entry is stored in a slot that was free. -/
theorem cb_assign {b nb : Leaf V} (h : CB b) {s : Nat} (hs : ¬ Used b s) (hp : PermOK nb.perm)
    (hu : ∀ x, Used nb x ↔ Used b x ∨ x = s) (hk : ∀ x, x ≠ s → nb.klx x = b.klx x) (hf : ∀ x, x ≠ s → nb.ksuf x = b.ksuf x)
    (hss : nb.ksuf s ≠ none ↔ nb.klx s = 64) : CB nb := by
  refine ⟨hp, fun x => ?_⟩
  rw [hu]
  by_cases e : x = s
  · subst e
    rw [hss]
    exact ⟨fun g => ⟨.inr rfl, g⟩, fun g => g.2⟩
  · rw [hf x e, hk x e, h.clean x]
    exact ⟨fun g => ⟨.inl g.1, g.2⟩, fun g => ⟨g.1.resolve_right e, g.2⟩⟩

theorem currentLen_le {k : Key} (h : k.hasSuffix = false) : k.currentLen ≤ 8 := by
  unfold Key.hasSuffix at h
  have : ¬ 8 < k.currentLen := of_decide_eq_false h
  omega

theorem assignSlot_ksuf (b : Leaf V) (s : Nat) (k : Key) (v : V) (h : b.ksuf s = none) :
    (∀ x, x ≠ s → (assignSlot b s k v).klx x = b.klx x) ∧ (∀ x, x ≠ s → (assignSlot b s k v).ksuf x = b.ksuf x) ∧
    ((assignSlot b s k v).ksuf s ≠ none ↔ (assignSlot b s k v).klx s = 64) := by
  unfold assignSlot
  cases c : k.hasSuffix with
  | true =>
    rw [if_pos rfl]
    refine ⟨fun x hx => upd_ne _ _ _ hx, fun x hx => upd_ne _ _ _ hx, ?_⟩
    simp [upd, ksufKeylenx]
  | false =>
    rw [if_neg (by simp)]
    refine ⟨fun x hx => upd_ne _ _ _ hx, fun x hx => rfl, ?_⟩
    have := currentLen_le c
    simp only [upd_same, h, ne_eq, not_true_eq_false, false_iff]
    omega

theorem assignFromKey_ksuf (b : Leaf V) (s : Nat) (k : Key) (v : V) (h : b.ksuf s = none) :
    (∀ x, x ≠ s → (assignFromKey b s k v).klx x = b.klx x) ∧ (∀ x, x ≠ s → (assignFromKey b s k v).ksuf x = b.ksuf x) ∧
    ((assignFromKey b s k v).ksuf s ≠ none ↔ (assignFromKey b s k v).klx s = 64) := by
  unfold assignFromKey
  cases c : k.hasSuffix with
  | true =>
    rw [if_pos rfl]
    refine ⟨fun x hx => upd_ne _ _ _ hx, fun x hx => upd_ne _ _ _ hx, ?_⟩
    simp [upd, ksufKeylenx]
  | false =>
    rw [if_neg (by simp)]
    refine ⟨fun x hx => upd_ne _ _ _ hx, fun x hx => rfl, ?_⟩
    simp only [upd_same, h, ne_eq, not_true_eq_false, false_iff]
    omega

theorem used_sorted {b : Leaf V} {n : Nat} (hn : n ≤ 24) (h : b.perm = makeSorted24 n) (x : Nat) : Used b x ↔ x < n := by
  unfold Used
  rw [h, size_makeSorted n hn]
  constructor
  · rintro ⟨i, hi, rfl⟩
    rw [get_makeSorted n hn i hi]; exact hi
  · intro hx
    exact ⟨x, hx, get_makeSorted n hn x hx⟩

theorem cb_two (k k' : Key) (v v' : V) : CB ({ assignFromKey (assignFromKey emptyLeaf 0 k v) 1 k' v' with perm := makeSorted24 2 } : Leaf V) := by
  obtain ⟨a1, a2, a3⟩ := assignFromKey_ksuf (emptyLeaf : Leaf V) 0 k v rfl
  have h1 : (assignFromKey (emptyLeaf : Leaf V) 0 k v).ksuf 1 = none := by rw [a2 1 (by omega)]; rfl
  obtain ⟨b1, b2, b3⟩ := assignFromKey_ksuf (assignFromKey (emptyLeaf : Leaf V) 0 k v) 1 k' v' h1
  refine ⟨permOK_makeSorted 2 (by omega), fun s => ?_⟩
  rw [used_sorted (n := 2) (by omega) rfl]
  simp only
  by_cases e1 : s = 1
  · subst e1; rw [b3]; simp
  · by_cases e0 : s = 0
    · subst e0; rw [b2 0 (by omega), b1 0 (by omega), a3]; simp
    · rw [b2 s e1, a2 s e0]
      constructor
      · intro g; exact absurd rfl g
      · intro g; have := g.1; omega

theorem cb_final (ek : Key) (ev : V) (nk : Key) (nv : V) (c : Ordering) : CB (finalLeaf ek ev nk nv c) := by
  have h : finalLeaf ek ev nk nv c = { assignFromKey (assignFromKey emptyLeaf 0 ek ev) 1 nk nv with perm := makeSorted24 2 } ∨
      finalLeaf ek ev nk nv c = { assignFromKey (assignFromKey emptyLeaf 0 nk nv) 1 ek ev with perm := makeSorted24 2 } := by
    unfold finalLeaf
    cases c with
    | lt => exact .inl rfl
    | gt => exact .inr rfl
    | eq =>
      cases e : decide (ek.currentLen ≤ nk.currentLen)
      · right; simp only [e, Bool.false_eq_true, if_false]
      · left; simp only [e, if_true]
  rcases h with h | h <;> rw [h] <;> exact cb_two _ _ _ _

theorem moveLoop_moved {p : BitVec 128} (hp : PermOK p) {pos : Nat} {b : Leaf V} (n : Nat) (hn : pos + n ≤ 24) (i : Nat) (hi : i < n)
    (hk : b.klx (get 5 p (pos + i)) = 64) : (moveLoop p pos (b, emptyLeaf) n).1.ksuf (get 5 p (pos + i)) = none := by
  induction n with
  | zero => omega
  | succ n ih =>
    obtain ⟨-, -, hkl⟩ := moveLoop_perm p pos (b, emptyLeaf) n
    by_cases e : i = n
    · subst e
      simp only [moveLoop, moveOne, hkl, ksufKeylenx]
      rw [if_pos hk]
      exact upd_same _ _ _
    · have hne : get 5 p (pos + i) ≠ get 5 p (pos + n) := by
        intro c
        have := hp.inj _ _ (by omega) (by omega) c
        omega
      have := ih (by omega) (by omega)
      simp only [moveLoop, moveOne]
      split
      · simp only [upd, hne, if_false]; exact this
      · exact this

theorem moveLoop_rest {p : BitVec 128} {pos : Nat} {b : Leaf V} (n : Nat) (j : Nat) (hj : n ≤ j) :
    (moveLoop p pos (b, emptyLeaf) n).2.ksuf j = none := by
  induction n with
  | zero => rfl
  | succ n ih =>
    have hne : j ≠ n := by omega
    have := ih (by omega)
    simp only [moveLoop, moveOne]
    split
    · split
      · simp only [upd, hne, if_false]; exact this
      · exact this
    · exact this

theorem moveLoop_take {p : BitVec 128} (hp : PermOK p) {pos : Nat} {b : Leaf V} (n : Nat) (hn : pos + n ≤ 24) (i : Nat) (hi : i < n) :
    (moveLoop p pos (b, emptyLeaf) n).2.klx i = b.klx (get 5 p (pos + i)) ∧
    (moveLoop p pos (b, emptyLeaf) n).2.ksuf i = if b.klx (get 5 p (pos + i)) = 64 then b.ksuf (get 5 p (pos + i)) else none := by
  induction n with
  | zero => omega
  | succ n ih =>
    obtain ⟨-, -, hkl⟩ := moveLoop_perm p pos (b, emptyLeaf) n
    by_cases e : i = n
    · subst e
      have hz := moveLoop_rest (p := p) (pos := pos) (b := b) i i (Nat.le_refl _)
      have hold := (moveLoop_old (x := (b, emptyLeaf)) (s := get 5 p (pos + i)) i (p := p) (pos := pos) (by
        intro j hj e
        have := hp.inj _ _ (by omega) (by omega) e
        omega)).2
      simp only [moveLoop, moveOne, hkl, hold, ksufKeylenx]
      by_cases hk : b.klx (get 5 p (pos + i)) = 64
      · rw [if_pos hk, if_pos hk]
        cases hc : b.ksuf (get 5 p (pos + i)) with
        | none => simp only [upd_same]; exact ⟨trivial, hz⟩
        | some x => simp only [upd_same]; exact ⟨trivial, trivial⟩
      · rw [if_neg hk, if_neg hk]
        simp only [upd_same]
        exact ⟨trivial, hz⟩
    · have hne : i ≠ n := e
      have := ih (by omega) (by omega)
      simp only [moveLoop, moveOne]
      split
      · split
        · simp only [upd, hne, if_false]; exact this
        · simp only [upd, hne, if_false]; exact this
      · simp only [upd, hne, if_false]; exact this

theorem cb_split {b : Leaf V} (h : CB b) {pos : Nat} (hp : pos < size 5 b.perm) :
    CB (splitLeaf b pos).1 ∧ CB (splitLeaf b pos).2.1 ∧
    ∀ s x, (splitLeaf b pos).1.ksuf s = some x → b.ksuf s = some x := by
  have hsz := h.perm.size_le
  have hn : pos + (size 5 b.perm - pos) ≤ 24 := by omega
  have hpm := moveLoop_perm b.perm pos (b, (emptyLeaf : Leaf V)) (size 5 b.perm - pos)
  have left : ∀ s, (∃ i, i < size 5 b.perm - pos ∧ get 5 b.perm (pos + i) = s) ∧ (splitLeaf b pos).1.ksuf s = none ∨
      (∀ i, i < size 5 b.perm - pos → get 5 b.perm (pos + i) ≠ s) ∧ (splitLeaf b pos).1.ksuf s = b.ksuf s := by
    intro s
    by_cases c : ∃ i, i < size 5 b.perm - pos ∧ get 5 b.perm (pos + i) = s
    · left
      refine ⟨c, ?_⟩
      obtain ⟨i, hi, e⟩ := c
      subst e
      by_cases hk : b.klx (get 5 b.perm (pos + i)) = 64
      · exact moveLoop_moved h.perm _ hn i hi hk
      · have h0 : b.ksuf (get 5 b.perm (pos + i)) = none := by
          by_contra c; exact hk ((h.clean _).1 c).2
        show (moveLoop b.perm pos (b, emptyLeaf) (size 5 b.perm - pos)).1.ksuf _ = none
        have mono : ∀ m s, b.ksuf s = none → (moveLoop b.perm pos (b, emptyLeaf) m).1.ksuf s = none := by
          intro m
          induction m with
          | zero => intro s hs; exact hs
          | succ m ih =>
            intro s hs
            simp only [moveLoop, moveOne]
            split
            · simp only [upd]; split
              · rfl
              · exact ih s hs
            · exact ih s hs
        exact mono _ _ h0
    · right
      have c' : ∀ i, i < size 5 b.perm - pos → get 5 b.perm (pos + i) ≠ s := fun i hi e => c ⟨i, hi, e⟩
      exact ⟨c', (moveLoop_old _ c').2⟩
  have hu : ∀ s, Used (splitLeaf b pos).1 s ↔ ∃ i, i < pos ∧ get 5 b.perm i = s := by
    intro s
    show (∃ i, i < size 5 (setSize 5 b.perm pos) ∧ get 5 (setSize 5 b.perm pos) i = s) ↔ _
    rw [Verif.Perm.size_setSize params24 _ (by omega)]
    constructor
    · rintro ⟨i, hi, e⟩
      rw [Verif.Perm.get_setSize params24 _ (by omega) (by omega)] at e
      exact ⟨i, hi, e⟩
    · rintro ⟨i, hi, e⟩
      exact ⟨i, hi, by rw [Verif.Perm.get_setSize params24 _ (by omega) (by omega)]; exact e⟩
  refine ⟨⟨permOK_setSize h.perm (by omega), fun s => ?_⟩, ⟨permOK_makeSorted _ (by omega), fun s => ?_⟩, fun s x hx => ?_⟩
  · have hkl : (splitLeaf b pos).1.klx s = b.klx s := congrFun hpm.2.2 s
    rw [hu, hkl]
    rcases left s with ⟨⟨i, hi, e⟩, e2⟩ | ⟨c, e2⟩
    · rw [e2]
      refine ⟨fun g => absurd rfl g, ?_⟩
      rintro ⟨⟨j, hj, e3⟩, -⟩
      have := h.perm.inj j (pos + i) (by omega) (by omega) (e3.trans e.symm)
      omega
    · rw [e2, h.clean s]
      refine and_congr_left fun _ => ?_
      constructor
      · rintro ⟨i, hi, e⟩
        refine ⟨i, ?_, e⟩
        by_contra g
        exact c (i - pos) (by omega) (by rw [show pos + (i - pos) = i by omega]; exact e)
      · rintro ⟨i, hi, e⟩
        exact ⟨i, by omega, e⟩
  · rw [used_sorted (n := size 5 b.perm - pos) (by omega) rfl]
    by_cases hs : s < size 5 b.perm - pos
    · obtain ⟨e1, e2⟩ := moveLoop_take h.perm (b := b) _ hn s hs
      have e1' : (splitLeaf b pos).2.1.klx s = _ := e1
      have e2' : (splitLeaf b pos).2.1.ksuf s = _ := e2
      rw [e1', e2']
      by_cases hk : b.klx (get 5 b.perm (pos + s)) = 64
      · rw [if_pos hk, h.clean]
        exact ⟨fun _ => ⟨hs, hk⟩, fun _ => ⟨⟨pos + s, by omega, rfl⟩, hk⟩⟩
      · rw [if_neg hk]
        exact ⟨fun g => absurd rfl g, fun g => absurd g.2 hk⟩
    · have : (splitLeaf b pos).2.1.ksuf s = none := moveLoop_rest _ s (by omega)
      rw [this]
      exact ⟨fun g => absurd rfl g, fun g => absurd g.1 hs⟩
  · rcases left s with ⟨-, e2⟩ | ⟨-, e2⟩
    · rw [e2] at hx; cases hx
    · rw [← e2]; exact hx

/-! ## Steps that touch no leaf -/

/-- `t'` has the same leaf bodies as `t`, and maybe more nodes of the other kind. -/
structure Hull (t t' : Tree V) : Prop where
  body : t'.body = t.body
  fresh : t.fresh ≤ t'.fresh
  top : (∀ p, t.fresh ≤ p → t.kind p = none) → ∀ p, t'.fresh ≤ p → t'.kind p = none

theorem Hull.refl (t : Tree V) : Hull t t := ⟨rfl, Nat.le_refl _, id⟩
theorem Hull.trans {a b c : Tree V} (h : Hull a b) (g : Hull b c) : Hull a c :=
  ⟨g.body.trans h.body, Nat.le_trans h.fresh g.fresh, fun x => g.top (h.top x)⟩
theorem Hull.of_eq {t t' : Tree V} (h1 : t'.body = t.body) (h2 : t'.fresh = t.fresh) (h3 : t'.kind = t.kind) : Hull t t' :=
  ⟨h1, by omega, fun h p hp => by rw [h3]; exact h p (by omega)⟩

theorem Hull.ct {t t' : Tree V} (H : Hull t t') (h : CT t) : CT t' :=
  ⟨fun p => by rw [H.body]; exact h.body p, H.top h.top, fun p hp => by rw [H.body]; exact h.rest p (Nat.le_trans H.fresh hp)⟩

theorem Hull.keep {t t' : Tree V} (H : Hull t t') : NoOverwrite t t' := fun p s x hx => .inr (by rw [← H.body]; exact hx)

theorem lock_hull {t t' : Tree V} {p : Nat} (h : lock t p = .ok t') : Hull t t' := by
  unfold lock at h
  by_cases c : t.locked p = true
  · rw [if_pos c] at h; cases h
  · rw [if_neg c] at h; cases h; exact Hull.of_eq rfl rfl rfl

theorem setParent_hull {t t' : Tree V} {p q : Nat} {b : Bool} (h : setParent t p q b = .ok t') : Hull t t' := by
  unfold setParent at h
  by_cases c : t.kind p = some (if b then Kind.leaf else Kind.inode)
  · rw [if_pos c] at h; cases h; exact Hull.of_eq rfl rfl rfl
  · rw [if_neg c] at h; cases h

theorem allocInode_hull (t : Tree V) (r lk : Bool) (hh : Nat) (a : Arr (Option Nat)) : Hull t (allocInode t r lk hh a).1 := by
  refine ⟨rfl, Nat.le_succ _, fun h p hp => ?_⟩
  simp only [allocInode, upd] at hp ⊢
  rw [if_neg (by omega)]
  exact h p (by omega)

theorem setParents_hull {a : Arr (Option Nat)} {sib : Nat} {b : Bool} : ∀ {n} {t t' : Tree V},
    setParents t a sib b n = .ok t' → Hull t t'
  | 0, t, t', h => by cases h; exact Hull.refl t
  | n + 1, t, t', h => by
    simp only [setParents] at h
    cases h1 : setParents t a sib b n with
    | error e => rw [h1] at h; cases h
    | ok t1 =>
      rw [h1] at h
      simp only [bind, Except.bind] at h
      have s1 := setParents_hull h1
      cases hc : a.child n with
      | none => rw [hc] at h; cases h; exact s1
      | some c => rw [hc] at h; exact s1.trans (setParent_hull h)

theorem promote_hull {t t' : Tree V} {l r s : Nat} {b : Bool} (h : promoteLayerRoot t l r s b = .ok t') : Hull t t' := by
  simp only [promoteLayerRoot, bind, Except.bind] at h
  have s0 := allocInode_hull t true false (if b = true then 0 else t.height l + 1) (rootArr l r s)
  generalize allocInode t true false (if b = true then 0 else t.height l + 1) (rootArr l r s) = x at h s0
  obtain ⟨t1, n⟩ := x
  simp only at h s0
  cases h1 : setParent t1 l n b with
  | error e => rw [h1] at h; cases h
  | ok t2 =>
    rw [h1] at h
    simp only at h
    cases h2 : setParent t2 r n b with
    | error e => rw [h2] at h; cases h
    | ok t3 =>
      rw [h2] at h
      cases h
      exact ((s0.trans (setParent_hull h1)).trans (setParent_hull h2)).trans (Hull.of_eq rfl rfl rfl)

theorem createMain_hull {t t' : Tree V} {l r s : Nat} {b : Bool} (h : createMainRoot t l r s b = .ok t') : Hull t t' := by
  simp only [createMainRoot, bind, Except.bind] at h
  have s0 := allocInode_hull t true false (if b = true then 0 else t.height l + 1) (rootArr l r s)
  generalize allocInode t true false (if b = true then 0 else t.height l + 1) (rootArr l r s) = x at h s0
  obtain ⟨t1, n⟩ := x
  simp only at h s0
  by_cases c : t1.root ≠ l
  · rw [if_pos c] at h; cases h
  · rw [if_neg c] at h
    have s1 : Hull t { t1 with root := n } := s0.trans (Hull.of_eq rfl rfl rfl)
    cases h1 : setParent { t1 with root := n } l n b with
    | error e => rw [h1] at h; cases h
    | ok t2 =>
      rw [h1] at h
      simp only at h
      cases h2 : setParent t2 r n b with
      | error e => rw [h2] at h; cases h
      | ok t3 =>
        rw [h2] at h
        cases h
        exact ((s1.trans (setParent_hull h1)).trans (setParent_hull h2)).trans (Hull.of_eq rfl rfl rfl)

theorem propagate_hull : ∀ n {t t' : Tree V} {l r s : Nat} {m y b : Bool}, propagate n t l r s m y b = .ok t' → Hull t t'
  | 0, t, t', l, r, s, m, y, b, h => by cases h
  | n + 1, t, t', l, r, s, m, y, b, h => by
    have ih := fun (t t' : Tree V) l r s m y b => @propagate_hull n t t' l r s m y b
    simp only [propagate, bind, Except.bind] at h
    cases h0 : getParent t l b with
    | error e => rw [h0] at h; cases h
    | ok x =>
      rw [h0] at h
      cases x with
      | none =>
        cases y with
        | true =>
          simp only [if_true] at h
          cases h1 : promoteLayerRoot t l r s b with
          | error e => rw [h1] at h; cases h
          | ok t1 => rw [h1] at h; cases h; exact (promote_hull h1).trans (Hull.of_eq rfl rfl rfl)
        | false =>
          cases m with
          | true =>
            simp only [if_true, Bool.false_eq_true, if_false] at h
            cases h1 : createMainRoot t l r s b with
            | error e => rw [h1] at h; cases h
            | ok t1 => rw [h1] at h; cases h; exact (createMain_hull h1).trans (Hull.of_eq rfl rfl rfl)
          | false => cases h
      | some p =>
        simp only at h
        by_cases c : t.kind p ≠ some .inode
        · rw [if_pos c] at h; cases h
        · rw [if_neg c] at h
          cases h1 : lock t p with
          | error e => rw [h1] at h; cases h
          | ok t1 =>
            rw [h1] at h
            have s1 := lock_hull h1
            simp only at h
            cases h2 : findChild (t1.arr p) l 0 ((t1.arr p).nkeys + 1) with
            | none => rw [h2] at h; cases h
            | some idx =>
              rw [h2] at h
              simp only at h
              by_cases c2 : (t1.arr p).nkeys < inodeWidth
              · rw [if_pos c2] at h
                cases h3 : setParent { t1 with arr := upd t1.arr p (Verif.Internode.insertKeyAndChild (t1.arr p) idx s (some r)) } r p b with
                | error e => rw [h3] at h; cases h
                | ok t2 =>
                  rw [h3] at h; cases h
                  have s2 : Hull t1 t2 := (Hull.of_eq rfl rfl rfl : Hull t1 { t1 with arr := upd t1.arr p (Verif.Internode.insertKeyAndChild (t1.arr p) idx s (some r)) }).trans (setParent_hull h3)
                  exact (s1.trans s2).trans (Hull.of_eq rfl rfl rfl)
              · rw [if_neg c2] at h
                have s2 := allocInode_hull t1 false true (t1.height p) emptyArr
                generalize allocInode t1 false true (t1.height p) emptyArr = x at h s2
                obtain ⟨t2, sib⟩ := x
                simp only at h s2
                generalize Verif.Internode.splitInto inodeWidth (t1.arr p) emptyArr idx s (some r) = w at h
                obtain ⟨la, ra, popup, wl⟩ := w
                simp only at h
                cases h3 : setParents { t2 with arr := upd (upd t2.arr p la) sib ra } ra sib (t2.height p == 0) (ra.nkeys + 1) with
                | error e => rw [h3] at h; cases h
                | ok t3 =>
                  rw [h3] at h
                  simp only at h
                  cases h4 : setParent t3 r (if wl = true then p else sib) b with
                  | error e => rw [h4] at h; cases h
                  | ok t4 =>
                    rw [h4] at h
                    simp only at h
                    have s3 : Hull t (unlockSplit (unlockSplit t4 r) l) := by
                      refine ((((s1.trans s2).trans ?_).trans (setParents_hull h3)).trans (setParent_hull h4)).trans ?_
                      · exact Hull.of_eq rfl rfl rfl
                      · exact Hull.of_eq rfl rfl rfl
                    exact s3.trans (ih _ _ _ _ _ _ _ _ h)

theorem linkSibling_hull {t t' : Tree V} {l r : Nat} (h : linkSibling t l r = .ok t') : Hull t t' := by
  simp only [linkSibling] at h
  cases h0 : t.next l with
  | none => rw [h0] at h; cases h; exact Hull.of_eq rfl rfl rfl
  | some q =>
    rw [h0] at h
    simp only at h
    cases h1 : t.kind q with
    | none => rw [h1] at h; cases h
    | some k =>
      rw [h1] at h
      cases k with
      | leaf => cases h; exact Hull.of_eq rfl rfl rfl
      | inode => cases h

/-! ## Steps that touch leaves -/

theorem CT.setBody {t t' : Tree V} (h : CT t) {l : Nat} {nb : Leaf V} (hl : l < t.fresh) (hb : CB nb)
    (e1 : t'.body = upd t.body l nb) (e2 : t'.fresh = t.fresh) (e3 : t'.kind = t.kind) : CT t' := by
  refine ⟨fun p => ?_, fun p hp => by rw [e3]; exact h.top p (by omega), fun p hp => ?_⟩
  · rw [e1]
    by_cases e : p = l
    · subst e; rw [upd_same]; exact hb
    · rw [upd_ne _ _ _ e]; exact h.body p
  · rw [e1, upd_ne _ _ _ (by omega)]
    exact h.rest p (by omega)

theorem keep_setBody {t t' : Tree V} {l : Nat} {nb : Leaf V} (e1 : t'.body = upd t.body l nb)
    (hk : ∀ s x, nb.ksuf s = some x → (t.body l).ksuf s = none ∨ (t.body l).ksuf s = some x) : NoOverwrite t t' := by
  intro p s x hx
  rw [e1] at hx
  by_cases e : p = l
  · subst e; rw [upd_same] at hx; exact hk s x hx
  · rw [upd_ne _ _ _ e] at hx; exact .inr hx

theorem CT.alloc {t : Tree V} (h : CT t) (r lk : Bool) {b : Leaf V} (hb : CB b) : CT (allocLeaf t r lk b).1 := by
  refine ⟨fun p => ?_, fun p hp => ?_, fun p hp => ?_⟩
  · simp only [allocLeaf, upd]
    split
    · exact hb
    · exact h.body p
  · simp only [allocLeaf, upd] at hp ⊢
    rw [if_neg (by omega)]; exact h.top p (by omega)
  · simp only [allocLeaf, upd] at hp ⊢
    rw [if_neg (by omega)]; exact h.rest p (by omega)

theorem CT.lt {t : Tree V} (h : CT t) {p : Nat} (hp : t.kind p = some .leaf) : p < t.fresh := by
  by_contra c
  rw [h.top p (by omega)] at hp
  cases hp

theorem calcSplitPoint_lt {b : Leaf V} {ik pos : Nat} (h : calcSplitPoint b ik = some pos) : pos < size 5 b.perm := by
  unfold calcSplitPoint at h
  simp only at h
  by_cases c1 : size 5 b.perm = 0
  · rw [if_pos c1] at h; cases h
  · rw [if_neg c1] at h
    by_cases c2 : size 5 b.perm / 2 = 0
    · rw [if_pos c2] at h; cases h
    · rw [if_neg c2] at h
      split at h
      · cases h
      · next c => cases h; omega

theorem split_clean {t t' : Tree V} {l ik : Nat} (ht : CT t) (hl : t.kind l = some .leaf)
    (h : handleLeafSplit t l ik = .ok t') : CT t' ∧ NoOverwrite t t' := by
  have hlt := ht.lt hl
  unfold handleLeafSplit at h
  simp only at h
  cases hc : calcSplitPoint (t.body l) ik with
  | none => rw [hc] at h; cases h
  | some pos =>
    rw [hc] at h
    simp only at h
    obtain ⟨q1, q2, q3⟩ := cb_split (ht.body l) (calcSplitPoint_lt hc)
    generalize splitLeaf (t.body l) pos = x at h q1 q2 q3
    obtain ⟨lb, rb, s⟩ := x
    simp only at h q1 q2 q3
    have ha := ht.alloc false true q2
    have hb1 : (allocLeaf t false true rb).1.body = upd t.body t.fresh rb := rfl
    have hf1 : (allocLeaf t false true rb).1.fresh = t.fresh + 1 := rfl
    generalize allocLeaf t false true rb = y at h ha hb1 hf1
    obtain ⟨t1, r⟩ := y
    simp only at h ha hb1 hf1
    have h2 : CT ({ t1 with body := upd t1.body l lb } : Tree V) := ha.setBody (by omega) q1 rfl rfl rfl
    have hk2 : NoOverwrite t ({ t1 with body := upd t1.body l lb } : Tree V) := by
      intro p s x hx
      simp only at hx
      by_cases e : p = l
      · subst e; rw [upd_same] at hx; exact .inr (q3 s x hx)
      · rw [upd_ne _ _ _ e, hb1] at hx
        by_cases e2 : p = t.fresh
        · subst e2; exact .inl (ht.rest _ (Nat.le_refl _) s)
        · rw [upd_ne _ _ _ e2] at hx; exact .inr hx
    simp only [bind, Except.bind] at h
    cases hk : linkSibling { t1 with body := upd t1.body l lb } l r with
    | error e => rw [hk] at h; cases h
    | ok t3 =>
      rw [hk] at h
      simp only at h
      have H := (linkSibling_hull hk).trans (propagate_hull _ h)
      refine ⟨H.ct h2, fun p s x hx => hk2 p s x ?_⟩
      rw [← H.body]; exact hx

/-- New leaves for a sublayer: old leaves are as before. -/
structure Grown (t0 t : Tree V) : Prop where
  ct : CT t
  le : t0.fresh ≤ t.fresh
  body : ∀ p, p < t0.fresh → t.body p = t0.body p

/-- The last leaf of the chain made so far. -/
structure TailOK (t0 t : Tree V) (tail : Nat) : Prop where
  new : t0.fresh ≤ tail
  lt : tail < t.fresh
  none : ∀ s, (t.body tail).ksuf s = Option.none

theorem Grown.alloc {t0 t : Tree V} (g : Grown t0 t) (r lk : Bool) {b : Leaf V} (hb : CB b) : Grown t0 (allocLeaf t r lk b).1 := by
  refine ⟨g.ct.alloc r lk hb, Nat.le_succ_of_le g.le, fun p hp => ?_⟩
  have := g.le
  simp only [allocLeaf, upd]
  rw [if_neg (by omega)]; exact g.body p hp

theorem Grown.hang {t0 t : Tree V} (g : Grown t0 t) {tail : Nat} (h : TailOK t0 t tail) (q : Nat) :
    Grown t0 { t with body := upd t.body tail { (t.body tail) with klx := upd (t.body tail).klx 0 layerKeylenx,
                                                                   cell := upd (t.body tail).cell 0 (.layer q) } } := by
  refine ⟨g.ct.setBody h.lt (nb := { (t.body tail) with klx := upd (t.body tail).klx 0 layerKeylenx,
                                                        cell := upd (t.body tail).cell 0 (.layer q) }) ?_ rfl rfl rfl, g.le, fun p hp => ?_⟩
  · refine ⟨(g.ct.body tail).perm, fun s => ?_⟩
    have hc := (g.ct.body tail).clean s
    rw [h.none s] at hc
    show (t.body tail).ksuf s ≠ Option.none ↔ Used (t.body tail) s ∧ upd (t.body tail).klx 0 layerKeylenx s = 64
    rw [h.none s]
    refine ⟨fun e => absurd rfl e, ?_⟩
    rintro ⟨h1, h2⟩
    unfold upd at h2
    split at h2
    · cases h2
    · exact hc.2 ⟨h1, h2⟩
  · show upd t.body tail _ p = _
    have := h.new
    rw [upd_ne _ _ _ (by omega)]; exact g.body p hp

theorem cb_twig (ik : Nat) : CB ({ emptyLeaf with ikey := upd (fun _ => 0) 0 ik, perm := makeSorted24 1 } : Leaf V) := by
  refine ⟨permOK_makeSorted 1 (by omega), fun s => ⟨fun h => absurd rfl h, ?_⟩⟩
  rintro ⟨-, h⟩
  cases h

theorem twig_clean {t0 : Tree V} : ∀ (f : Nat) {t : Tree V} {head : Option Nat} {tail : Nat} {ek nk : Key} {c : Ordering}
    {x : Tree V × Option Nat × Nat × Key × Key × Ordering}, Grown t0 t → (head ≠ none → TailOK t0 t tail) →
    twigLoop f t head tail ek nk c = .ok x → Grown t0 x.1 ∧ (x.2.1 ≠ none → TailOK t0 x.1 x.2.2.1)
  | 0, t, head, tail, ek, nk, c, x, _, _, h => by cases h
  | f + 1, t, head, tail, ek, nk, c, x, g, ht, h => by
    rw [twigLoop] at h
    by_cases cc : c = .eq ∧ ek.hasSuffix ∧ nk.hasSuffix
    · rw [if_pos cc] at h
      simp only at h
      have ga := g.alloc true false (cb_twig (V := V) ek.ikey)
      have hb1 : (allocLeaf t true false ({ emptyLeaf with ikey := upd (fun _ => 0) 0 ek.ikey, perm := makeSorted24 1 } : Leaf V)).1.body =
        upd t.body t.fresh { emptyLeaf with ikey := upd (fun _ => 0) 0 ek.ikey, perm := makeSorted24 1 } := rfl
      have hf1 : (allocLeaf t true false ({ emptyLeaf with ikey := upd (fun _ => 0) 0 ek.ikey, perm := makeSorted24 1 } : Leaf V)).1.fresh = t.fresh + 1 := rfl
      have hp1 : (allocLeaf t true false ({ emptyLeaf with ikey := upd (fun _ => 0) 0 ek.ikey, perm := makeSorted24 1 } : Leaf V)).2 = t.fresh := rfl
      generalize allocLeaf t true false ({ emptyLeaf with ikey := upd (fun _ => 0) 0 ek.ikey, perm := makeSorted24 1 } : Leaf V) = y at h ga hb1 hf1 hp1
      obtain ⟨t1, p⟩ := y
      simp only at h ga hb1 hf1 hp1
      subst hp1
      have hle := g.le
      have hnew : TailOK t0 t1 t.fresh := ⟨hle, by omega, fun s => by rw [hb1, upd_same]; rfl⟩
      cases head with
      | none =>
        simp only at h
        exact twig_clean f ga (fun _ => hnew) h
      | some hd =>
        simp only at h
        have hto := ht (by simp)
        have hne : tail ≠ t.fresh := by have := hto.lt; omega
        have hto1 : TailOK t0 t1 tail := ⟨hto.new, by have := hto.lt; omega, fun s => by rw [hb1, upd_ne _ _ _ hne]; exact hto.none s⟩
        refine twig_clean f (ga.hang hto1 t.fresh) (fun _ => ⟨hnew.new, hnew.lt, fun s => ?_⟩) h
        show (upd t1.body tail _ t.fresh).ksuf s = none
        rw [upd_ne _ _ _ (fun e => hne e.symm)]
        exact hnew.none s
    · rw [if_neg cc] at h
      cases h
      exact ⟨g, ht⟩

theorem layer_clean {t t' : Tree V} {b : Leaf V} {s p : Nat} {k : Key} {v : V} (ht : CT t)
    (h : createLayer t b s k v = .ok (t', p)) : Grown t t' := by
  unfold createLayer at h
  cases h1 : Key.fromSuffix? ((b.suf s).getD []) with
  | none => rw [h1] at h; cases h
  | some ek =>
    rw [h1] at h
    simp only at h
    generalize (if layerKeylenx ≤ b.klx s then Cell.null else b.cell s) = ce at h
    cases ce with
    | null => cases h
    | layer q => cases h
    | val ev =>
      simp only [bind, Except.bind] at h
      generalize hn : (if k.hasSuffix = true then k.shift else k) = nk at h
      cases h2 : twigLoop (nk.data.length + 1) t none 0 ek nk (ek.compare nk.ikey nk.currentLen) with
      | error e => rw [h2] at h; cases h
      | ok x =>
        rw [h2] at h
        obtain ⟨g, htl⟩ := twig_clean _ (⟨ht, Nat.le_refl _, fun _ _ => rfl⟩ : Grown t t) (fun e => absurd rfl e) h2
        obtain ⟨t1, head, tail, ek1, nk1, c1⟩ := x
        simp only at h g htl
        have ga := g.alloc true false (cb_final ek1 ev nk1 v c1)
        have hb1 : (allocLeaf t1 true false (finalLeaf ek1 ev nk1 v c1)).1.body = upd t1.body t1.fresh (finalLeaf ek1 ev nk1 v c1) := rfl
        have hf1 : (allocLeaf t1 true false (finalLeaf ek1 ev nk1 v c1)).1.fresh = t1.fresh + 1 := rfl
        generalize allocLeaf t1 true false (finalLeaf ek1 ev nk1 v c1) = y at h ga hb1 hf1
        obtain ⟨t2, p2⟩ := y
        simp only at h ga hb1 hf1
        cases head with
        | none => simp only at h; cases h; exact ga
        | some hd =>
          simp only at h
          cases h
          have hto := htl (by simp)
          have hne : tail ≠ t1.fresh := by have := hto.lt; omega
          exact ga.hang ⟨hto.new, by have := hto.lt; omega, fun s => by rw [hb1, upd_ne _ _ _ hne]; exact hto.none s⟩ _

end Verif.Tree

namespace Verif.Threads
open Verif.Spec
open Verif.Internode (Arr upd upd_same upd_ne)
open Verif.Perm (size get back insertFromBack swapFreeSlots params24)
open Verif.Tree
open Verif.Store (permOK_swap findAlt_spec)
variable {V : Type}

/-- A new entry is stored in a free slot. -/
theorem store_clean {t t1 t' : Tree V} (ht : CT t) {l : Nat} (hl : t.kind l = some .leaf) (H : Hull t t1) {s pos : Nat} {k : Key} {v : V}
    {perm : BitVec 128} (hs : ¬ Used (t.body l) s) (hp : PermOK perm)
    (hu : ∀ x, Used ({ assignSlot (t.body l) s k v with perm := perm } : Leaf V) x ↔ Used (t.body l) x ∨ x = s)
    (e1 : t'.body = upd t1.body l { assignSlot (t.body l) s k v with perm := perm }) (e2 : t'.fresh = t1.fresh) (e3 : t'.kind = t1.kind) :
    CT t' ∧ NoOverwrite t t' := by
  have h0 := (ht.body l).unused hs
  obtain ⟨a1, a2, a3⟩ := assignSlot_ksuf (t.body l) s k v h0
  refine ⟨(H.ct ht).setBody (Nat.lt_of_lt_of_le (ht.lt hl) H.fresh) (cb_assign (ht.body l) hs hp hu a1 a2 a3) e1 e2 e3, ?_⟩
  refine keep_setBody (by rw [e1, H.body]) fun z x hx => ?_
  by_cases e : z = s
  · subst e; exact .inl h0
  · right; rw [← a2 z e]; exact hx

/-- What a critical section does when the key belongs to its leaf. -/
def critIn (v : V) (t0 t : Tree V) (k : Key) (r l : Nat) : Except Err (Tree V × Next V) :=
  match searchForInsert (t0.body l) k 0 (size 5 (t0.body l).perm) with
  | .found s =>
    match (t0.body l).cell s with
    | .null => .ok (unlock t l, .again k r)
    | .layer _ => .error .misread
    | .val old =>
      .ok (unlock { t with body := upd t.body l { (t0.body l) with cell := upd (t0.body l).cell s (.val v) } } l, .done (some old))
  | .notFound pos =>
    if leafWidth ≤ size 5 (t0.body l).perm then do
      let t ← handleLeafSplit t l k.ikey
      .ok (t, .again k r)
    else
      let s := back 5 24 (t0.body l).perm
      if s = 0 ∧ canReuseSlot0 t l k.ikey = false then
        match findAlt (t0.body l).perm 1 (leafWidth - size 5 (t0.body l).perm - 1) with
        | some (alt, off) =>
          let nb := { assignSlot (t0.body l) alt k v with
            perm := (insertFromBack 5 24 (swapFreeSlots 5 (t0.body l).perm 23 (23 - off)) pos).1 }
          .ok ({ unlock { t with body := upd t.body l nb } l with count := t.count + 1 }, .done none)
        | none => do
          let t ← handleLeafSplit t l k.ikey
          .ok (t, .again k r)
      else
        let nb := { assignSlot (t0.body l) s k v with perm := (insertFromBack 5 24 (t0.body l).perm pos).1 }
        .ok ({ unlock { t with body := upd t.body l nb } l with count := t.count + 1 }, .done none)
  | .layer s =>
    match (t0.body l).cell s with
    | .layer q => .ok (unlock t l, .again k.shift q)
    | _ => .error .misread
  | .conflict s => do
    let (t, p) ← createLayer t (t0.body l) s k v
    let nb := { (t0.body l) with ksuf := upd (t0.body l).ksuf s none, klx := upd (t0.body l).klx s layerKeylenx,
                                 cell := upd (t0.body l).cell s (.layer p) }
    .ok ({ unlock { t with body := upd t.body l nb } l with count := t.count + 1 }, .done none)

theorem critIn_clean {v : V} {t t1 t' : Tree V} {k : Key} {r l : Nat} {x : Next V} (ht : CT t) (hl : t.kind l = some .leaf)
    (h2 : lock t l = .ok t1) (h : critIn v t t1 k r l = .ok (t', x)) : CT t' ∧ NoOverwrite t t' := by
  unfold critIn at h
  simp only [bind, Except.bind] at h
  have H := lock_hull h2
  have hk1 : t1.kind = t.kind := by
    unfold lock at h2
    split at h2
    · cases h2
    · cases h2; rfl
  have H1 : Hull t (unlock t1 l) := H.trans (Hull.of_eq rfl rfl rfl)
  have done : CT (unlock t1 l) ∧ NoOverwrite t (unlock t1 l) := ⟨H1.ct ht, H1.keep⟩
  have hlt := ht.lt hl
  have hlt1 : l < t1.fresh := Nat.lt_of_lt_of_le hlt H.fresh
  have ht1 := H.ct ht
  have hcb := ht.body l
  have split : ∀ {ik : Nat} {t2 : Tree V}, handleLeafSplit t1 l ik = .ok t2 → CT t2 ∧ NoOverwrite t t2 := by
    intro ik t2 e
    obtain ⟨g1, g2⟩ := split_clean ht1 (by rw [hk1]; exact hl) e
    refine ⟨g1, fun p s x hx => ?_⟩
    rw [← H.body]; exact g2 p s x hx
  have hsp := searchForInsert_spec (t.body l) k (size 5 (t.body l).perm) 0
  cases h3 : searchForInsert (t.body l) k 0 (size 5 (t.body l).perm) with
  | found s =>
    rw [h3] at h
    simp only at h
    cases h4 : (t.body l).cell s with
    | null => rw [h4] at h; cases h; exact done
    | layer q => rw [h4] at h; cases h
    | val old =>
      rw [h4] at h; cases h
      refine ⟨ht1.setBody hlt1 (nb := { (t.body l) with cell := upd (t.body l).cell s (.val v) }) ⟨hcb.perm, hcb.clean⟩ rfl rfl rfl, ?_⟩
      exact keep_setBody (l := l) (nb := { (t.body l) with cell := upd (t.body l).cell s (.val v) }) (by rw [← H.body]; rfl) fun s x hx => .inr hx
  | notFound pos =>
    rw [h3] at h hsp
    simp only at h hsp
    have hpos : pos ≤ size 5 (t.body l).perm := by have := hsp.2.1; omega
    by_cases c1 : leafWidth ≤ size 5 (t.body l).perm
    · rw [if_pos c1] at h
      cases h5 : handleLeafSplit t1 l k.ikey with
      | error e => rw [h5] at h; cases h
      | ok t2 => rw [h5] at h; cases h; exact split h5
    · rw [if_neg c1] at h
      have hsz : size 5 (t.body l).perm < 24 := by unfold leafWidth at c1; omega
      by_cases c2 : back 5 24 (t.body l).perm = 0 ∧ canReuseSlot0 t1 l k.ikey = false
      · rw [if_pos c2] at h
        cases h6 : findAlt (t.body l).perm 1 (leafWidth - size 5 (t.body l).perm - 1) with
        | none =>
          rw [h6] at h
          simp only at h
          cases h5 : handleLeafSplit t1 l k.ikey with
          | error e => rw [h5] at h; cases h
          | ok t2 => rw [h5] at h; cases h; exact split h5
        | some ao =>
          obtain ⟨alt, off⟩ := ao
          rw [h6] at h
          simp only at h
          obtain ⟨o1, o2, o3⟩ := findAlt_spec h6
          unfold leafWidth at o2
          cases h
          have ho : off < 24 - size 5 (t.body l).perm := by omega
          have hsw : size 5 (swapFreeSlots 5 (t.body l).perm 23 (23 - off)) = size 5 (t.body l).perm := by
            rw [Verif.Perm.swapFreeSlots_eq_exchange, Verif.Perm.size_exchange params24]
          have hpo := permOK_swap hcb.perm (i := 23) (j := 23 - off) (by omega) (by omega)
          refine store_clean ht hl H (s := alt) (pos := pos) (k := k) (v := v) (by rw [o3]; exact free_unused hcb.perm ho)
            (permOK_insert hpo (by omega) (by omega)) (fun z => ?_) rfl rfl rfl
          rw [used_insert (b := { (t.body l) with perm := swapFreeSlots 5 (t.body l).perm 23 (23 - off) }) hpo (by simp only; omega) (pos := pos) (by simp only; omega) rfl,
            used_swap (b := t.body l) hsz ho rfl]
          have : back 5 24 (swapFreeSlots 5 (t.body l).perm 23 (23 - off)) = alt := by
            show get 5 (swapFreeSlots 5 (t.body l).perm 23 (23 - off)) 23 = alt
            rw [Verif.Perm.swapFreeSlots_eq_exchange, Verif.Perm.get_exchange params24 _ (by omega) (by omega) (by omega), if_pos rfl, o3]
          simp only [this]
      · rw [if_neg c2] at h
        cases h
        refine store_clean ht hl H (s := back 5 24 (t.body l).perm) (pos := pos) (k := k) (v := v) ?_
          (permOK_insert hcb.perm hsz hpos) (fun z => used_insert hcb.perm hsz hpos rfl z) rfl rfl rfl
        exact free_unused hcb.perm (off := 0) (by omega)
  | layer s =>
    rw [h3] at h
    simp only at h
    cases h4 : (t.body l).cell s with
    | null => rw [h4] at h; cases h
    | val old => rw [h4] at h; cases h
    | layer q => rw [h4] at h; cases h; exact done
  | conflict s =>
    rw [h3] at h hsp
    simp only at h hsp
    cases h5 : createLayer t1 (t.body l) s k v with
    | error e => rw [h5] at h; cases h
    | ok y =>
      obtain ⟨t2, p⟩ := y
      rw [h5] at h
      cases h
      have g := layer_clean ht1 h5
      have hb2 : t2.body l = t.body l := by rw [g.body l hlt1, H.body]
      refine ⟨g.ct.setBody (Nat.lt_of_lt_of_le hlt1 g.le)
        (nb := { (t.body l) with ksuf := upd (t.body l).ksuf s none, klx := upd (t.body l).klx s layerKeylenx,
                                 cell := upd (t.body l).cell s (.layer p) }) ?_ rfl rfl rfl, ?_⟩
      · refine ⟨hcb.perm, fun z => ?_⟩
        show upd (t.body l).ksuf s none z ≠ none ↔ Used (t.body l) z ∧ upd (t.body l).klx s layerKeylenx z = 64
        by_cases e : z = s
        · subst e
          rw [upd_same, upd_same]
          exact ⟨fun e => absurd rfl e, fun e => by cases e.2⟩
        · rw [upd_ne _ _ _ e, upd_ne _ _ _ e]; exact hcb.clean z
      · intro q z x hx
        by_cases e : q = l
        · subst e
          simp only [unlock, upd_same] at hx
          by_cases e : z = s
          · subst e; rw [upd_same] at hx; cases hx
          · rw [upd_ne _ _ _ e] at hx; exact .inr hx
        · simp only [unlock] at hx
          rw [upd_ne _ _ _ e] at hx
          by_cases hq : q < t1.fresh
          · rw [g.body q hq, H.body] at hx; exact .inr hx
          · have := ht1.rest q (by omega) z
            rw [H.body] at this; exact .inl this

theorem crit_clean {v : V} {t t' : Tree V} {k : Key} {r l : Nat} {x : Next V} (ht : CT t) (h : crit v t k r l = .ok (t', x)) :
    CT t' ∧ NoOverwrite t t' := by
  unfold crit at h
  simp only [bind, Except.bind] at h
  cases h1 : leafAt t l with
  | error e => rw [h1] at h; cases h
  | ok b =>
    have hkb : t.kind l = some .leaf ∧ b = t.body l := by
      unfold leafAt at h1
      split at h1
      · next e => cases h1; exact ⟨e, rfl⟩
      · cases h1
    obtain ⟨hl, rfl⟩ := hkb
    rw [h1] at h
    simp only at h
    cases h2 : lock t l with
    | error e => rw [h2] at h; cases h
    | ok t1 =>
      rw [h2] at h
      simp only at h
      have H1 : Hull t (unlock t1 l) := (lock_hull h2).trans (Hull.of_eq rfl rfl rfl)
      have done : CT (unlock t1 l) ∧ NoOverwrite t (unlock t1 l) := ⟨H1.ct ht, H1.keep⟩
      have rest : critIn v t t1 k r l = .ok (t', x) → CT t' ∧ NoOverwrite t t' := critIn_clean ht hl h2
      split at h
      rotate_left
      · rename_i q hq
        cases hi : ikeyBound t1 q with
        | error e => rw [hi] at h; cases h
        | ok nb =>
          rw [hi] at h
          simp only at h
          by_cases cm : nb ≤ k.ikey
          · rw [decide_eq_true cm] at h
            simp only [if_true] at h; cases h; exact done
          · rw [decide_eq_false cm] at h
            simp only [Bool.false_eq_true, if_false] at h
            exact rest h
      · simp only [Bool.false_eq_true, if_false] at h
        exact rest h

theorem step_clean {fixed : Bool} {t : Tree V} {c : Pc V} (ht : CT t) : CT (step fixed t c).1 ∧ NoOverwrite t (step fixed t c).1 := by
  have same : CT t ∧ NoOverwrite t t := ⟨ht, NoOverwrite.refl t⟩
  cases c with
  | sect o k r l =>
    cases o with
    | get d => exact same
    | insert d v =>
      simp only [step]
      cases h : crit v t k r l with
      | error e => exact same
      | ok y =>
        obtain ⟨t', x⟩ := y
        have := crit_clean ht h
        cases x with
        | again k' lr => exact this
        | done z => exact this
  | adv o k r n l =>
    cases n with
    | zero => exact same
    | succ n =>
      simp only [step]
      repeat' split
      all_goals exact same
  | desc o k r p =>
    simp only [step]
    repeat' split
    all_goals exact same
  | climb o k p =>
    simp only [step]
    repeat' split
    all_goals exact same
  | next o k l =>
    simp only [step]
    repeat' split
    all_goals exact same
  | _ => exact same

theorem act_clean {fixed : Bool} {s : St V} (a : Act V) (ht : CT s.tree) :
    CT (act fixed s a).tree ∧ NoOverwrite s.tree (act fixed s a).tree := by
  cases a with
  | call i o =>
    simp only [act]
    repeat' split
    all_goals exact ⟨ht, NoOverwrite.refl _⟩
  | run i => exact step_clean ht

theorem ct_empty : CT (empty : Tree V) := by
  refine ⟨fun p => ?_, fun p hp => ?_, fun p hp s => ?_⟩
  · simp only [empty, allocLeaf, upd]; split <;> exact cb_empty
  · simp only [empty, allocLeaf, upd] at hp ⊢; rw [if_neg (by omega)]
  · simp only [empty, allocLeaf, upd] at hp ⊢; rw [if_neg (by omega)]; rfl

theorem insertLoop_clean {v : V} : ∀ (f : Nat) {t t' : Tree V} {k : Key} {lr : Nat} {x : Option V}, CT t →
    insertLoop v f t k lr = .ok (t', x) → CT t'
  | 0, t, t', k, lr, x, _, h => by cases h
  | f + 1, t, t', k, lr, x, ht, h => by
    rw [insertLoop_eq] at h
    simp only [bind, Except.bind] at h
    split at h
    · cases h
    · split at h
      · cases h
      · split at h
        · cases h
        · split at h
          · exact insertLoop_clean f ht h
          · split at h
            · cases h
            · rename_i y hy
              obtain ⟨t1, n⟩ := y
              have := (crit_clean ht hy).1
              cases n with
              | again k' lr' => exact insertLoop_clean f this h
              | done z => cases h; exact this

end Verif.Threads
