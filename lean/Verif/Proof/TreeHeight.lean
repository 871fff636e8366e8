import Verif.Proof.TreeSplit
import Mathlib.Data.Finset.Card
import Mathlib.Data.Finset.Range
import Mathlib.Algebra.Order.BigOperators.Group.Finset
set_option linter.unusedSimpArgs false
set_option linter.unusedVariables false
/-!
# Node counts: how many nodes an operation allocates and how high a tree can be
-/
namespace Verif.Tree
open Verif.Spec (Bytes chunk lenClass)
open Verif.Internode (Arr upd splitInto)
open Verif.Perm (size get back backAtOffset insertFromBack swapFreeSlots setSize makeSorted24 params24)
variable {V : Type}
variable {t : Tree V} {G : Ghost} {lk : Nat → Prop}

theorem setParent_fresh {t t' : Tree V} {p q : Nat} {b : Bool} (h : setParent t p q b = .ok t') : t'.fresh = t.fresh := by
  unfold setParent at h
  by_cases c : t.kind p = some (if b then Kind.leaf else Kind.inode)
  · rw [if_pos c] at h; cases h; rfl
  · rw [if_neg c] at h; cases h

theorem setParents_fresh {a : Arr (Option Nat)} {sib : Nat} {b : Bool} : ∀ n (t t' : Tree V),
    setParents t a sib b n = .ok t' → t'.fresh = t.fresh := by
  intro n
  induction n with
  | zero => intro t t' h; cases h; rfl
  | succ n ih =>
    intro t t' h
    simp only [setParents, bind, Except.bind] at h
    split at h
    · cases h
    · rename_i t1 h1
      have := ih _ _ h1
      split at h
      · cases h; exact this
      · rw [setParent_fresh h, this]

theorem promoteLayerRoot_fresh {t t' : Tree V} {l r s : Nat} {b : Bool} (h : promoteLayerRoot t l r s b = .ok t') :
    t'.fresh = t.fresh + 1 := by
  simp only [promoteLayerRoot, bind, Except.bind] at h
  generalize (if b = true then 0 else t.height l + 1) = hh at h
  split at h
  · cases h
  · rename_i t1 h1
    split at h
    · cases h
    · rename_i t2 h2
      cases h
      show t2.fresh = _
      rw [setParent_fresh h2, setParent_fresh h1]; rfl

theorem createMainRoot_fresh {t t' : Tree V} {l r s : Nat} {b : Bool} (h : createMainRoot t l r s b = .ok t') :
    t'.fresh = t.fresh + 1 := by
  simp only [createMainRoot, bind, Except.bind] at h
  generalize (if b = true then 0 else t.height l + 1) = hh at h
  split at h
  · cases h
  split at h
  · cases h
  · rename_i t1 h1
    split at h
    · cases h
    · rename_i t2 h2
      cases h
      show t2.fresh = _
      rw [setParent_fresh h2, setParent_fresh h1]; rfl

theorem lock_fresh {t t' : Tree V} {p : Nat} (h : lock t p = .ok t') : t'.fresh = t.fresh := by
  unfold lock at h
  split at h
  · cases h
  · cases h; rfl

theorem propagate_fresh : ∀ f (t t' : Tree V) l r s a b c, propagate f t l r s a b c = .ok t' → t'.fresh ≤ t.fresh + f := by
  intro f
  induction f with
  | zero => intro t t' l r s a b c h; cases h
  | succ f ih =>
    intro t t' l r s a b c h
    simp only [propagate, bind, Except.bind] at h
    split at h
    · cases h
    split at h
    · split at h
      · split at h
        · cases h
        · rename_i t1 h1
          cases h
          show t1.fresh ≤ _
          rw [promoteLayerRoot_fresh h1]; omega
      · split at h
        · split at h
          · cases h
          · rename_i t1 h1
            cases h
            show t1.fresh ≤ _
            rw [createMainRoot_fresh h1]; omega
        · cases h
    · split at h
      · cases h
      split at h
      · cases h
      rename_i t1 h1
      split at h
      · cases h
      split at h
      · split at h
        · cases h
        · rename_i t2 h2
          cases h
          show t2.fresh ≤ _
          have e1 := setParent_fresh h2
          dsimp only at e1
          have e2 := lock_fresh h1
          omega
      · split at h
        · cases h
        rename_i t2 h2
        split at h
        · cases h
        rename_i t3 h3
        have := ih _ _ _ _ _ _ _ _ h
        have e1 := setParents_fresh _ _ _ h2
        have e1 : t2.fresh = t1.fresh + 1 := e1
        have e2 := lock_fresh h1
        have e3 := setParent_fresh h3
        have : t'.fresh ≤ t3.fresh + f := this
        omega

theorem linkSibling_fresh {t t' : Tree V} {l r : Nat} (h : linkSibling t l r = .ok t') : t'.fresh = t.fresh := by
  simp only [linkSibling] at h
  split at h
  · cases h; rfl
  · split at h
    · cases h; rfl
    · cases h

theorem handleLeafSplit_fresh {t t' : Tree V} {l ik : Nat} (h : handleLeafSplit t l ik = .ok t') :
    t'.fresh ≤ t.fresh + 65 := by
  simp only [handleLeafSplit, bind, Except.bind] at h
  split at h
  · cases h
  split at h
  · cases h
  rename_i t1 h1
  have e1 := linkSibling_fresh h1
  have e1 : t1.fresh = t.fresh + 1 := e1
  have := propagate_fresh _ _ _ _ _ _ _ _ _ h
  unfold maxPropagation at this
  omega

/-! ## Height -/

/-- The `k`-th ancestor. -/
def up (t : Tree V) (y : Nat) : Nat → Option Nat
  | 0 => some y
  | k + 1 => (up t y k).bind t.parent

theorem up_child_none {x : Nat} (h : Inv t G G lk) {i : Info} (hx : G x = some i) {p : Nat} (hp : t.parent x = some p) :
    p < t.fresh := by
  obtain ⟨ip, j, h1, _⟩ := h.up_child (E := G) hx hp
  exact h.lt h1

open Classical in
/-- The leaves `k` levels below `x`. -/
noncomputable def under (t : Tree V) (x k : Nat) : Finset Nat := (Finset.range t.fresh).filter fun y => up t y k = some x

theorem mem_under {x k y : Nat} : y ∈ under t x k ↔ y < t.fresh ∧ up t y k = some x := by
  simp [under]

theorem under_step (h : Inv t G G lk) {x k m : Nat} {i : Info} (hx : G x = some i) (hk : t.kind x = some .inode) (c : Nat)
    (hm : m ≤ (t.arr x).nkeys + 1)
    (hc : ∀ j z, j ≤ (t.arr x).nkeys → (t.arr x).child j = some z → c ≤ (under t z k).card) : m * c ≤ (under t x (k + 1)).card := by
  classical
  have hin := h.inode x i hk hx
  let ch : Nat → Nat := fun j => ((t.arr x).child j).getD 0
  have hch : ∀ j, j ≤ (t.arr x).nkeys → (t.arr x).child j = some (ch j) ∧ t.parent (ch j) = some x := by
    intro j hj
    obtain ⟨z, iz, hz⟩ := hin.child j hj
    have : ch j = z := by simp [ch, hz.eq]
    rw [this]; exact ⟨hz.eq, hz.par⟩
  have hsub : (Finset.range m).biUnion (fun j => under t (ch j) k) ⊆ under t x (k + 1) := by
    intro y hy
    simp only [Finset.mem_biUnion, Finset.mem_range, mem_under] at hy ⊢
    obtain ⟨j, hj, h1, h2⟩ := hy
    refine ⟨h1, ?_⟩
    simp only [up, h2, Option.bind_some]
    exact (hch j (by omega)).2
  have hdis : ∀ a ∈ Finset.range m, ∀ b ∈ Finset.range m, a ≠ b → Disjoint (under t (ch a) k) (under t (ch b) k) := by
    intro a ha b hb hab
    rw [Finset.disjoint_left]
    intro y h1 h2
    simp only [mem_under, Finset.mem_range] at h1 h2 ha hb
    apply hab
    apply hin.inj a b (by omega) (by omega)
    rw [(hch a (by omega)).1, (hch b (by omega)).1, ← h1.2, ← h2.2]
  have hcard := Finset.card_le_card hsub
  rw [Finset.card_biUnion hdis] at hcard
  refine le_trans ?_ hcard
  have := Finset.card_nsmul_le_sum (Finset.range m) (fun j => (under t (ch j) k).card) c (by
    intro j hj
    simp only [Finset.mem_range] at hj
    exact hc j _ (by omega) (hch j (by omega)).1)
  simpa [Finset.card_range] using this

theorem under_big (h : Inv t G G lk) : ∀ k x i, G x = some i → hgt t x = k → t.parent x ≠ none → 8 ^ k ≤ (under t x k).card := by
  intro k
  induction k with
  | zero =>
    intro x i hx _ _
    rw [Nat.pow_zero, Nat.one_le_iff_ne_zero, Finset.card_ne_zero]
    exact ⟨x, mem_under.2 ⟨h.lt hx, rfl⟩⟩
  | succ k ih =>
    intro x i hx hh hp
    rcases h.kind_cases hx with hk | hk
    · rw [hgt_leaf hk] at hh; omega
    · have hin := h.inode x i hk hx
      have := under_step h (m := 8) hx hk (8 ^ k) (by rcases hin.fill with f | f; omega; exact absurd f hp) (by
        intro j z hj hz
        obtain ⟨c, ic, hc⟩ := hin.child j hj
        have : c = z := by have := hc.eq; rw [hz] at this; exact (Option.some.inj this).symm
        subst this
        exact ih c ic hc.dom (by have := hc.hgt; omega) (by rw [hc.par]; simp))
      rw [Nat.pow_succ]; omega

/-- A tree of height `k` has at least `8 ^ (k - 1)` nodes. -/
theorem pow_height (h : Inv t G G lk) {x : Nat} {i : Info} (hx : G x = some i) : 8 ^ (hgt t x - 1) ≤ t.fresh := by
  have hle : ∀ z k, (under t z k).card ≤ t.fresh := by
    intro z k
    have : under t z k ⊆ Finset.range t.fresh := by
      intro y hy; exact Finset.mem_range.2 (mem_under.1 hy).1
    simpa using Finset.card_le_card this
  have hlt := h.lt hx
  rcases h.kind_cases hx with hk | hk
  · rw [hgt_leaf hk]; simp; omega
  · obtain ⟨c, ic, hc⟩ := (h.inode x i hk hx).child 0 (by omega)
    have hh := hc.hgt
    have := under_big h _ c ic hc.dom rfl (by rw [hc.par]; simp)
    have e : Verif.Tree.hgt t x - 1 = Verif.Tree.hgt t c := by omega
    rw [e]
    exact le_trans this (hle _ _)

/-- With fewer than `8 ^ 50` nodes no path is longer than 50. -/
theorem height_bound (h : Inv t G G lk) (hf : t.fresh < 8 ^ 50) : ∀ x, x < t.fresh → hgt t x ≤ 50 := by
  intro x hx
  obtain ⟨i, hi⟩ := (h.dom x).2 hx
  have h1 := pow_height h hi
  have h2 : 8 ^ (hgt t x - 1) < 8 ^ 50 := by omega
  have := (Nat.pow_lt_pow_iff_right (by omega : 1 < 8)).1 h2
  omega

end Verif.Tree
