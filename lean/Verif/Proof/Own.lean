import Verif.Proof.TreeLeaf
import Verif.Model.Store
import Mathlib.Algebra.BigOperators.Group.Finset.Basic
set_option linter.unusedSimpArgs false
set_option linter.unusedVariables false
/-!
# How many slots of a tree hold a given pointer

`refs t a` counts the slots of `t` that hold the pointer `a`.  Splits and node allocation do not change it; storing to a
slot changes it by the obvious amount.  Free slots are null.
-/
namespace Verif.Tree
open Verif.Spec (Bytes)
open Verif.Internode (Arr upd)
open Verif.Perm (size get back backAtOffset insertFromBack swapFreeSlots setSize makeSorted24 params24)

/-- 1 if the cell holds the pointer `a`. -/
def ind (c : Cell Nat) (a : Nat) : Nat := if c = .val a then 1 else 0

@[simp] theorem ind_null (a : Nat) : ind .null a = 0 := by simp [ind]
@[simp] theorem ind_layer (q a : Nat) : ind (.layer q) a = 0 := by simp [ind]
@[simp] theorem ind_val (p a : Nat) : ind (.val p) a = if a = p then 1 else 0 := by
  unfold ind; by_cases h : a = p
  · subst h; simp
  · rw [if_neg, if_neg h]; intro e; exact h (Cell.val.inj e).symm

/-- Slots of a leaf holding `a`. -/
def leafRefs (b : Leaf Nat) (a : Nat) : Nat := ∑ s ∈ Finset.range 24, ind (b.cell s) a
/-- Slots of a tree holding `a`. -/
def refs (t : Tree Nat) (a : Nat) : Nat := ∑ p ∈ Finset.range t.fresh, leafRefs (t.body p) a

theorem sum_change (f g : Nat → Nat) {i n : Nat} (hi : i < n) (h : ∀ j, j ≠ i → f j = g j) :
    (∑ j ∈ Finset.range n, f j) + g i = (∑ j ∈ Finset.range n, g j) + f i := by
  induction n with
  | zero => omega
  | succ n ih =>
    rw [Finset.sum_range_succ, Finset.sum_range_succ]
    by_cases e : i = n
    · subst e
      have : ∑ j ∈ Finset.range i, f j = ∑ j ∈ Finset.range i, g j :=
        Finset.sum_congr rfl fun j hj => h j (by have := Finset.mem_range.1 hj; omega)
      omega
    · have := ih (by omega)
      have := h n (by omega)
      omega

theorem leafRefs_upd {b nb : Leaf Nat} {s : Nat} {c : Cell Nat} (hs : s < 24) (h : nb.cell = upd b.cell s c) (a : Nat) :
    leafRefs nb a + ind (b.cell s) a = leafRefs b a + ind c a := by
  have := sum_change (fun s => ind (nb.cell s) a) (fun s => ind (b.cell s) a) hs (by
    intro j hj; simp only [h, upd, hj, if_false])
  unfold leafRefs
  rw [this]
  simp [h, upd]

theorem leafRefs_congr {b nb : Leaf Nat} (h : nb.cell = b.cell) (a : Nat) : leafRefs nb a = leafRefs b a := by
  unfold leafRefs; rw [h]

theorem leafRefs_null {b : Leaf Nat} (h : ∀ s, b.cell s = .null) (a : Nat) : leafRefs b a = 0 := by
  unfold leafRefs
  exact Finset.sum_eq_zero fun s _ => by rw [h]; simp

theorem refs_setBody {t t' : Tree Nat} {l : Nat} {nb : Leaf Nat} (hl : l < t.fresh) (hf : t'.fresh = t.fresh)
    (hb : t'.body = upd t.body l nb) (a : Nat) : refs t' a + leafRefs (t.body l) a = refs t a + leafRefs nb a := by
  have := sum_change (fun p => leafRefs (t'.body p) a) (fun p => leafRefs (t.body p) a) (i := l) (n := t.fresh) hl (by
    intro j hj; simp only [hb, upd, hj, if_false])
  unfold refs
  rw [hf]
  rw [this]
  simp [hb, upd]

attribute [local irreducible] leafRefs

/-- A leaf body whose free slots are null and whose pointers agree with `keylenx`. -/
structure TidyB (b : Leaf Nat) : Prop where
  perm : PermOK b.perm
  free : ∀ s, (∀ j, j < b.n → get 5 b.perm j ≠ s) → b.cell s = .null
  val : ∀ s v, b.cell s = .val v → b.klx s < 128
  layer : ∀ s q, b.cell s = .layer q → 128 ≤ b.klx s

structure Tidy (t : Tree Nat) : Prop where
  body : ∀ p, TidyB (t.body p)
  rest : ∀ p, t.kind p ≠ some .leaf → t.body p = emptyLeaf
  top : ∀ p, t.fresh ≤ p → t.kind p = none

theorem tidyB_empty : TidyB emptyLeaf :=
  ⟨permOK_initial, fun _ _ => rfl, fun _ _ h => (by cases h), fun _ _ h => (by cases h)⟩

theorem Tidy.lt {t : Tree Nat} (h : Tidy t) {l : Nat} (hk : t.kind l = some .leaf) : l < t.fresh := by
  by_contra c
  rw [h.top l (by omega)] at hk
  cases hk

/-- Cells outside the leaf's slots are null. -/
theorem TidyB.slot_lt {b : Leaf Nat} (h : TidyB b) {s : Nat} (hs : b.cell s ≠ .null) : s < 24 := by
  by_contra c
  apply hs
  apply h.free
  intro j hj e
  have := h.perm.lt j (by have := h.perm.size_le; unfold Leaf.n at hj; omega)
  omega

theorem leafRefs_pos {b : Leaf Nat} (h : TidyB b) {s a : Nat} (hs : b.cell s = .val a) : 0 < leafRefs b a := by
  have hlt := h.slot_lt (s := s) (by rw [hs]; simp)
  have := leafRefs_upd (nb := { b with cell := upd b.cell s .null }) (c := .null) hlt rfl a
  rw [hs] at this
  simp at this
  omega

theorem refs_pos {t : Tree Nat} (h : Tidy t) {l s a : Nat} (hs : (t.body l).cell s = .val a) : 0 < refs t a := by
  have hk : t.kind l = some .leaf := by
    by_contra c
    rw [h.rest l c] at hs
    cases hs
  have h1 := leafRefs_pos (h.body l) hs
  have := refs_setBody (t' := { t with body := upd t.body l emptyLeaf }) (nb := emptyLeaf) (h.lt hk) rfl rfl a
  rw [leafRefs_null (b := emptyLeaf) (fun _ => rfl)] at this
  omega

theorem tidy_empty : Tidy (empty : Tree Nat) := by
  refine ⟨fun p => ?_, fun p hp => ?_, fun p hp => ?_⟩
  · simp only [empty, allocLeaf, upd]; split <;> exact tidyB_empty
  · simp only [empty, allocLeaf, upd]; split <;> rfl
  · simp only [empty, allocLeaf] at hp
    simp only [empty, allocLeaf, upd]
    rw [if_neg (by omega)]

theorem refs_empty (a : Nat) : refs (empty : Tree Nat) a = 0 := by
  unfold refs
  refine Finset.sum_eq_zero fun p _ => leafRefs_null (fun s => ?_) a
  simp only [empty, allocLeaf, upd]; split <;> rfl

/-! ## Steps that touch no leaf body -/

/-- `t'` has the same bodies and the same leaves as `t`, and maybe more nodes of the other kind. -/
structure Shell (t t' : Tree Nat) : Prop where
  body : t'.body = t.body
  fresh : t.fresh ≤ t'.fresh
  kind : ∀ p, t'.kind p = some .leaf ↔ t.kind p = some .leaf
  top : (∀ p, t.fresh ≤ p → t.kind p = none) → ∀ p, t'.fresh ≤ p → t'.kind p = none

theorem Shell.refl (t : Tree Nat) : Shell t t := ⟨rfl, Nat.le_refl _, fun _ => Iff.rfl, id⟩

theorem Shell.trans {t1 t2 t3 : Tree Nat} (a : Shell t1 t2) (b : Shell t2 t3) : Shell t1 t3 :=
  ⟨b.body.trans a.body, Nat.le_trans a.fresh b.fresh, fun p => (b.kind p).trans (a.kind p), fun h => b.top (a.top h)⟩

/-- Node fields other than `kind`, `body`, `fresh` do not matter. -/
theorem Shell.of_eq {t t' : Tree Nat} (h1 : t'.body = t.body) (h2 : t'.fresh = t.fresh) (h3 : t'.kind = t.kind) : Shell t t' :=
  ⟨h1, by omega, fun p => by rw [h3], fun h p hp => by rw [h3]; exact h p (by omega)⟩

theorem Shell.tidy {t t' : Tree Nat} (S : Shell t t') (h : Tidy t) : Tidy t' :=
  ⟨fun p => by rw [S.body]; exact h.body p, fun p hp => by rw [S.body]; exact h.rest p (fun c => hp ((S.kind p).2 c)), S.top h.top⟩

theorem refs_mono_fresh {t : Tree Nat} (h : Tidy t) (a n : Nat) (hn : t.fresh ≤ n) :
    ∑ p ∈ Finset.range n, leafRefs (t.body p) a = refs t a := by
  unfold refs
  refine (Finset.sum_subset (Finset.range_mono hn) fun p _ hp => ?_).symm
  have hp' : t.fresh ≤ p := by simpa using hp
  rw [h.rest p (by rw [h.top p hp']; simp)]
  exact leafRefs_null (fun _ => rfl) a

theorem Shell.refs {t t' : Tree Nat} (S : Shell t t') (h : Tidy t) (a : Nat) : refs t' a = Verif.Tree.refs t a := by
  rw [← refs_mono_fresh h a t'.fresh S.fresh]
  unfold Verif.Tree.refs
  rw [S.body]

theorem lock_shell {t t' : Tree Nat} {p : Nat} (h : lock t p = .ok t') : Shell t t' := by
  unfold lock at h
  by_cases c : t.locked p = true
  · rw [if_pos c] at h; cases h
  · rw [if_neg c] at h; cases h; exact Shell.of_eq rfl rfl rfl

theorem setParent_shell {t t' : Tree Nat} {p q : Nat} {b : Bool} (h : setParent t p q b = .ok t') : Shell t t' := by
  unfold setParent at h
  by_cases c : t.kind p = some (if b then Kind.leaf else Kind.inode)
  · rw [if_pos c] at h; cases h; exact Shell.of_eq rfl rfl rfl
  · rw [if_neg c] at h; cases h

theorem allocInode_shell (t : Tree Nat) (r lk : Bool) (hh : Nat) (a : Arr (Option Nat)) (h : Tidy t) :
    Shell t (allocInode t r lk hh a).1 := by
  refine ⟨rfl, Nat.le_succ _, fun p => ?_, fun h' p hp => ?_⟩
  · simp only [allocInode, upd]
    split
    · next e => subst e; rw [h.top _ (Nat.le_refl _)]; simp
    · rfl
  · simp only [allocInode, upd] at hp ⊢
    rw [if_neg (by omega)]
    exact h' p (by omega)

theorem setParents_shell {a : Arr (Option Nat)} {sib : Nat} {b : Bool} : ∀ {n} {t t' : Tree Nat},
    setParents t a sib b n = .ok t' → Shell t t'
  | 0, t, t', h => by cases h; exact Shell.refl t
  | n + 1, t, t', h => by
    simp only [setParents] at h
    cases h1 : setParents t a sib b n with
    | error e => rw [h1] at h; cases h
    | ok t1 =>
      rw [h1] at h
      simp only [bind, Except.bind] at h
      have s1 := setParents_shell h1
      cases hc : a.child n with
      | none => rw [hc] at h; cases h; exact s1
      | some c => rw [hc] at h; exact s1.trans (setParent_shell h)

theorem promote_shell {t t' : Tree Nat} {l r s : Nat} {b : Bool} (ht : Tidy t) (h : promoteLayerRoot t l r s b = .ok t') :
    Shell t t' := by
  simp only [promoteLayerRoot, bind, Except.bind] at h
  have s0 := allocInode_shell t true false (if b = true then 0 else t.height l + 1) (rootArr l r s) ht
  generalize allocInode t true false (if b = true then 0 else t.height l + 1) (rootArr l r s) = x at h s0
  obtain ⟨t1, n⟩ := x
  simp only at h s0
  cases h1 : setParent t1 l n b with
  | error e => rw [h1] at h; cases h
  | ok t2 =>
    rw [h1] at h
    simp only at h
    cases h2 : setParent t2 r n b with
    | error e => rw [h2] at h; cases h
    | ok t3 =>
      rw [h2] at h
      cases h
      exact ((s0.trans (setParent_shell h1)).trans (setParent_shell h2)).trans (Shell.of_eq rfl rfl rfl)

theorem createMain_shell {t t' : Tree Nat} {l r s : Nat} {b : Bool} (ht : Tidy t) (h : createMainRoot t l r s b = .ok t') :
    Shell t t' := by
  simp only [createMainRoot, bind, Except.bind] at h
  have s0 := allocInode_shell t true false (if b = true then 0 else t.height l + 1) (rootArr l r s) ht
  generalize allocInode t true false (if b = true then 0 else t.height l + 1) (rootArr l r s) = x at h s0
  obtain ⟨t1, n⟩ := x
  simp only at h s0
  by_cases c : t1.root ≠ l
  · rw [if_pos c] at h; cases h
  · rw [if_neg c] at h
    have s1 : Shell t { t1 with root := n } := s0.trans (Shell.of_eq rfl rfl rfl)
    cases h1 : setParent { t1 with root := n } l n b with
    | error e => rw [h1] at h; cases h
    | ok t2 =>
      rw [h1] at h
      simp only at h
      cases h2 : setParent t2 r n b with
      | error e => rw [h2] at h; cases h
      | ok t3 =>
        rw [h2] at h
        cases h
        exact ((s1.trans (setParent_shell h1)).trans (setParent_shell h2)).trans (Shell.of_eq rfl rfl rfl)

theorem propagate_shell : ∀ n {t t' : Tree Nat} {l r s : Nat} {m y b : Bool}, Tidy t →
    propagate n t l r s m y b = .ok t' → Shell t t'
  | 0, t, t', l, r, s, m, y, b, _, h => by cases h
  | n + 1, t, t', l, r, s, m, y, b, ht, h => by
    have ih := @propagate_shell n
    simp only [propagate, bind, Except.bind] at h
    cases h0 : getParent t l b with
    | error e => rw [h0] at h; cases h
    | ok x =>
      rw [h0] at h
      cases x with
      | none =>
        cases y with
        | true =>
          simp only [if_true] at h
          cases h1 : promoteLayerRoot t l r s b with
          | error e => rw [h1] at h; cases h
          | ok t1 => rw [h1] at h; cases h; exact (promote_shell ht h1).trans (Shell.of_eq rfl rfl rfl)
        | false =>
          cases m with
          | true =>
            simp only [if_true, Bool.false_eq_true, if_false] at h
            cases h1 : createMainRoot t l r s b with
            | error e => rw [h1] at h; cases h
            | ok t1 => rw [h1] at h; cases h; exact (createMain_shell ht h1).trans (Shell.of_eq rfl rfl rfl)
          | false => cases h
      | some p =>
        simp only at h
        by_cases c : t.kind p ≠ some .inode
        · rw [if_pos c] at h; cases h
        · rw [if_neg c] at h
          cases h1 : lock t p with
          | error e => rw [h1] at h; cases h
          | ok t1 =>
            rw [h1] at h
            have s1 := lock_shell h1
            have ht1 := s1.tidy ht
            simp only at h
            cases h2 : findChild (t1.arr p) l 0 ((t1.arr p).nkeys + 1) with
            | none => rw [h2] at h; cases h
            | some idx =>
              rw [h2] at h
              simp only at h
              by_cases c2 : (t1.arr p).nkeys < inodeWidth
              · rw [if_pos c2] at h
                cases h3 : setParent { t1 with arr := upd t1.arr p (Verif.Internode.insertKeyAndChild (t1.arr p) idx s (some r)) } r p b with
                | error e => rw [h3] at h; cases h
                | ok t2 =>
                  rw [h3] at h; cases h
                  have s2 : Shell t1 t2 := (Shell.of_eq rfl rfl rfl : Shell t1 { t1 with arr := upd t1.arr p (Verif.Internode.insertKeyAndChild (t1.arr p) idx s (some r)) }).trans (setParent_shell h3)
                  exact (s1.trans s2).trans (Shell.of_eq rfl rfl rfl)
              · rw [if_neg c2] at h
                have s2 := allocInode_shell t1 false true (t1.height p) emptyArr ht1
                generalize allocInode t1 false true (t1.height p) emptyArr = x at h s2
                obtain ⟨t2, sib⟩ := x
                simp only at h s2
                generalize Verif.Internode.splitInto inodeWidth (t1.arr p) emptyArr idx s (some r) = w at h
                obtain ⟨la, ra, popup, wl⟩ := w
                simp only at h
                cases h3 : setParents { t2 with arr := upd (upd t2.arr p la) sib ra } ra sib (t2.height p == 0) (ra.nkeys + 1) with
                | error e => rw [h3] at h; cases h
                | ok t3 =>
                  rw [h3] at h
                  simp only at h
                  cases h4 : setParent t3 r (if wl = true then p else sib) b with
                  | error e => rw [h4] at h; cases h
                  | ok t4 =>
                    rw [h4] at h
                    simp only at h
                    have s3 : Shell t (unlockSplit (unlockSplit t4 r) l) := by
                      refine ((((s1.trans s2).trans ?_).trans (setParents_shell h3)).trans (setParent_shell h4)).trans ?_
                      · exact Shell.of_eq rfl rfl rfl
                      · exact Shell.of_eq rfl rfl rfl
                    exact s3.trans (ih (s3.tidy ht) h)

theorem linkSibling_shell {t t' : Tree Nat} {l r : Nat} (h : linkSibling t l r = .ok t') : Shell t t' := by
  simp only [linkSibling] at h
  cases h0 : t.next l with
  | none => rw [h0] at h; cases h; exact Shell.of_eq rfl rfl rfl
  | some q =>
    rw [h0] at h
    simp only at h
    cases h1 : t.kind q with
    | none => rw [h1] at h; cases h
    | some k =>
      rw [h1] at h
      cases k with
      | leaf => cases h; exact Shell.of_eq rfl rfl rfl
      | inode => cases h

/-! ## Storing to a leaf, adding a leaf -/

theorem Tidy.setBody {t t' : Tree Nat} (h : Tidy t) {l : Nat} {nb : Leaf Nat} (hl : t.kind l = some .leaf) (hb : TidyB nb)
    (e1 : t'.body = upd t.body l nb) (e2 : t'.fresh = t.fresh) (e3 : t'.kind = t.kind) : Tidy t' := by
  refine ⟨fun p => ?_, fun p hp => ?_, fun p hp => by rw [e3]; exact h.top p (by omega)⟩
  · rw [e1]; unfold upd; split
    · exact hb
    · exact h.body p
  · rw [e3] at hp
    rw [e1]; unfold upd
    rw [if_neg (fun c => hp (by rw [c]; exact hl))]
    exact h.rest p hp

theorem Tidy.allocLeaf {t : Tree Nat} (h : Tidy t) (r lk : Bool) {b : Leaf Nat} (hb : TidyB b) : Tidy (allocLeaf t r lk b).1 := by
  refine ⟨fun p => ?_, fun p hp => ?_, fun p hp => ?_⟩
  · simp only [Verif.Tree.allocLeaf, upd]; split
    · exact hb
    · exact h.body p
  · simp only [Verif.Tree.allocLeaf, upd] at hp ⊢
    by_cases e : p = t.fresh
    · simp [e] at hp
    · simp only [e, if_false] at hp ⊢
      exact h.rest p hp
  · simp only [Verif.Tree.allocLeaf, upd] at hp ⊢
    rw [if_neg (by omega)]
    exact h.top p (by omega)

theorem refs_allocLeaf (t : Tree Nat) (r lk : Bool) (b : Leaf Nat) (a : Nat) :
    refs (allocLeaf t r lk b).1 a = refs t a + leafRefs b a := by
  unfold refs
  simp only [allocLeaf]
  rw [Finset.sum_range_succ]
  refine congrArg₂ (· + ·) ?_ ?_
  · refine Finset.sum_congr rfl fun p hp => ?_
    have : p ≠ t.fresh := by have := Finset.mem_range.1 hp; omega
    simp only [upd, this, if_false]
  · simp only [upd, if_true]

/-! ## Splits -/

theorem moveLoop_cells {p : BitVec 128} (hp : PermOK p) {pos : Nat} {b : Leaf Nat} (n : Nat) (hn : pos + n ≤ 24) :
    (∀ a, leafRefs (moveLoop p pos (b, emptyLeaf) n).1 a + leafRefs (moveLoop p pos (b, emptyLeaf) n).2 a = leafRefs b a) ∧
    (∀ i, i < n → (moveLoop p pos (b, emptyLeaf) n).1.cell (get 5 p (pos + i)) = .null) ∧
    (∀ s, b.cell s = .null → (moveLoop p pos (b, emptyLeaf) n).1.cell s = .null) ∧
    (∀ i, n ≤ i → (moveLoop p pos (b, emptyLeaf) n).2.cell i = .null) := by
  induction n with
  | zero =>
    refine ⟨fun a => ?_, fun i hi => by omega, fun s hs => hs, fun i _ => rfl⟩
    simp only [moveLoop]
    rw [leafRefs_null (b := emptyLeaf) (fun _ => rfl)]; exact Nat.add_zero _
  | succ n ih =>
    obtain ⟨h1, h2, h3, h4⟩ := ih (by omega)
    generalize hx : moveLoop p pos (b, emptyLeaf) n = x at h1 h2 h3 h4
    have hcell : (moveOne p pos n x).1.cell = upd x.1.cell (get 5 p (pos + n)) .null ∧
        (moveOne p pos n x).2.cell = upd x.2.cell n (x.1.cell (get 5 p (pos + n))) := by
      unfold moveOne
      simp only
      split
      · split <;> exact ⟨rfl, rfl⟩
      · exact ⟨rfl, rfl⟩
    simp only [moveLoop, hx]
    refine ⟨fun a => ?_, fun i hi => ?_, fun s hs => ?_, fun i hi => ?_⟩
    · have e1 := leafRefs_upd (hp.lt (pos + n) (by omega)) hcell.1 a
      have e2 := leafRefs_upd (show n < 24 by omega) hcell.2 a
      rw [h4 n (Nat.le_refl _)] at e2
      simp only [ind_null] at e1 e2
      have := h1 a
      omega
    · rw [hcell.1]; unfold upd
      split
      · rfl
      · next c =>
        refine h2 i ?_
        by_contra c2
        have : i = n := by omega
        subst this; exact c rfl
    · rw [hcell.1]; unfold upd
      split
      · rfl
      · exact h3 s hs
    · rw [hcell.2]; unfold upd
      rw [if_neg (by omega)]
      exact h4 i (by omega)

theorem splitLeaf_tidy {b : Leaf Nat} (hb : TidyB b) {pos : Nat} (h0 : 0 < pos) (hp : pos < b.n) :
    TidyB (splitLeaf b pos).1 ∧ TidyB (splitLeaf b pos).2.1 ∧
    ∀ a, leafRefs (splitLeaf b pos).1 a + leafRefs (splitLeaf b pos).2.1 a = leafRefs b a := by
  have hsz := hb.perm.size_le
  have hS := splitLeaf_spec hb.perm h0 hp
  obtain ⟨s1, s2, s3, s4, s5, s6, s7, s8, s9, s10, s11⟩ := hS
  have hm := moveLoop_cells hb.perm (pos := pos) (b := b) (b.n - pos) (by unfold Leaf.n at *; omega)
  obtain ⟨m1, m2, m3, m4⟩ := hm
  have k1 := (moveLoop_perm b.perm pos (b, emptyLeaf) (b.n - pos)).2.2
  have c1 : (splitLeaf b pos).1.cell = (moveLoop b.perm pos (b, emptyLeaf) (b.n - pos)).1.cell := rfl
  have c2 : (splitLeaf b pos).2.1.cell = (moveLoop b.perm pos (b, emptyLeaf) (b.n - pos)).2.cell := rfl
  have l1 : (splitLeaf b pos).1.klx = b.klx := k1
  have old : ∀ s, (splitLeaf b pos).1.cell s = .null ∨ (splitLeaf b pos).1.cell s = b.cell s := by
    intro s
    by_cases e : ∃ i, i < b.n - pos ∧ get 5 b.perm (pos + i) = s
    · obtain ⟨i, hi, rfl⟩ := e
      exact Or.inl (m2 i hi)
    · refine Or.inr ?_
      rw [c1]
      exact (moveLoop_old (x := (b, emptyLeaf)) (p := b.perm) (pos := pos) (b.n - pos) (by
        intro i hi e'; exact e ⟨i, hi, e'⟩)).1
  have new : ∀ s, (splitLeaf b pos).2.1.cell s = .null ∨ ∃ s', (splitLeaf b pos).2.1.cell s = b.cell s' ∧
      (splitLeaf b pos).2.1.klx s = b.klx s' := by
    intro s
    by_cases e : s < b.n - pos
    · refine Or.inr ⟨get 5 b.perm (pos + s), ?_⟩
      have := moveLoop_new hb.perm (pos := pos) (b := b) (b.n - pos) (by unfold Leaf.n at *; omega) s e
      exact ⟨congrArg Ent.cell this, congrArg Ent.klx this⟩
    · exact Or.inl (m4 s (by omega))
  refine ⟨⟨s3, ?_, ?_, ?_⟩, ⟨s4, ?_, ?_, ?_⟩, fun a => by rw [leafRefs_congr c1, leafRefs_congr c2]; exact m1 a⟩
  · intro s hs
    rw [s1] at hs
    by_cases e : ∃ j, j < b.n ∧ get 5 b.perm j = s
    · obtain ⟨j, hj, rfl⟩ := e
      have : ¬ j < pos := fun c => hs j c (s8 j (by unfold Leaf.n at *; omega))
      have := m2 (j - pos) (by omega)
      rw [show pos + (j - pos) = j by omega] at this
      exact this
    · exact m3 s (hb.free s fun j hj e' => e ⟨j, hj, e'⟩)
  · intro s v hv
    rcases old s with h | h
    · rw [h] at hv; cases hv
    · rw [l1]; exact hb.val s v (by rw [← h]; exact hv)
  · intro s v hv
    rcases old s with h | h
    · rw [h] at hv; cases hv
    · rw [l1]; exact hb.layer s v (by rw [← h]; exact hv)
  · intro s hs
    rw [s2] at hs
    refine m4 s ?_
    by_contra c
    refine hs s (by omega) ?_
    exact get_makeSorted (b.n - pos) (by unfold Leaf.n; omega) s (by omega)
  · intro s v hv
    rcases new s with h | ⟨s', h, hk⟩
    · rw [h] at hv; cases hv
    · rw [hk]; exact hb.val s' v (by rw [← h]; exact hv)
  · intro s v hv
    rcases new s with h | ⟨s', h, hk⟩
    · rw [h] at hv; cases hv
    · rw [hk]; exact hb.layer s' v (by rw [← h]; exact hv)

theorem calcSplitPoint_range {b : Leaf Nat} {ik pos : Nat} (h : calcSplitPoint b ik = some pos) : 0 < pos ∧ pos < b.n := by
  unfold calcSplitPoint at h
  simp only at h
  by_cases c1 : size 5 b.perm = 0
  · rw [if_pos c1] at h; cases h
  · rw [if_neg c1] at h
    by_cases c2 : size 5 b.perm / 2 = 0
    · rw [if_pos c2] at h; cases h
    · rw [if_neg c2] at h
      split at h
      · cases h
      · next c => cases h; unfold Leaf.n; omega

/-- A leaf split moves pointers but keeps their number. -/
theorem handleLeafSplit_own {t t' : Tree Nat} {l ik : Nat} (ht : Tidy t) (hl : t.kind l = some .leaf)
    (h : handleLeafSplit t l ik = .ok t') : Tidy t' ∧ ∀ a, refs t' a = refs t a := by
  unfold handleLeafSplit at h
  simp only at h
  cases hc : calcSplitPoint (t.body l) ik with
  | none => rw [hc] at h; cases h
  | some pos =>
    rw [hc] at h
    obtain ⟨h0, hp⟩ := calcSplitPoint_range hc
    obtain ⟨q1, q2, q3⟩ := splitLeaf_tidy (ht.body l) h0 hp
    simp only at h
    generalize splitLeaf (t.body l) pos = x at h q1 q2 q3
    obtain ⟨lb, rb, s⟩ := x
    simp only at h q1 q2 q3
    have ht1 := ht.allocLeaf false true q2
    have hr1 := refs_allocLeaf t false true rb
    have hlt := ht.lt hl
    have hbl : (allocLeaf t false true rb).1.body l = t.body l := by
      simp only [allocLeaf, upd]; rw [if_neg (by omega)]
    have hkl : (allocLeaf t false true rb).1.kind l = some .leaf := by
      simp only [allocLeaf, upd]; rw [if_neg (by omega)]; exact hl
    generalize allocLeaf t false true rb = y at h ht1 hr1 hbl hkl
    obtain ⟨t1, r⟩ := y
    simp only at h ht1 hr1 hbl hkl
    have ht2 : Tidy ({ t1 with body := upd t1.body l lb } : Tree Nat) := ht1.setBody hkl q1 rfl rfl rfl
    have hr2 := fun a => refs_setBody (t := t1) (t' := { t1 with body := upd t1.body l lb }) (l := l) (nb := lb) (ht1.lt hkl) rfl rfl a
    simp only [bind, Except.bind] at h
    cases hk : linkSibling { t1 with body := upd t1.body l lb } l r with
    | error e => rw [hk] at h; cases h
    | ok t2 =>
      rw [hk] at h
      simp only at h
      have s1 := linkSibling_shell hk
      have s2 := s1.trans (propagate_shell _ (s1.tidy ht2) h)
      refine ⟨s2.tidy ht2, fun a => ?_⟩
      rw [s2.refs ht2]
      have e1 := hr1 a
      have e2 := hr2 a
      have e3 := q3 a
      rw [hbl] at e2
      omega

end Verif.Tree
