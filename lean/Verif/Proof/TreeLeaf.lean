import Verif.Model.Tree
import Verif.Proof.Permuter
import Verif.Proof.Key
import Verif.Prop.Permuter
import Mathlib.Data.Finset.Card
import Mathlib.Data.Finset.Range
set_option linter.unusedSimpArgs false
set_option linter.unusedVariables false
/-!
# Leaves as sequences of entries
-/
namespace Verif.Tree
open Verif.Spec (Bytes chunk lenClass)
open Verif.Internode (Arr upd)
open Verif.Perm (size get back backAtOffset insertFromBack swapFreeSlots setSize makeSorted24 params24)
variable {V : Type}

/-- One entry of a leaf. -/
structure Ent (V : Type) where
  ikey : Nat
  klx : Nat
  cell : Cell V
  suf : Option Bytes

/-- Entry in a slot. -/
def entAt (b : Leaf V) (s : Nat) : Ent V := ⟨b.ikey s, b.klx s, b.cell s, b.suf s⟩
/-- Number of entries. -/
def Leaf.n (b : Leaf V) : Nat := size 5 b.perm
/-- Entry at a position. -/
def Leaf.ent (b : Leaf V) (j : Nat) : Ent V := entAt b (get 5 b.perm j)

/-- Length class of an entry: number of key bytes in the chunk, 9 for suffix and layer entries. -/
def cls (klx : Nat) : Nat := if klx ≤ 8 then klx else 9
/-- Length class of a key at its current layer. -/
def kcls (k : Key) : Nat := if k.hasSuffix then 9 else k.currentLen

/-- The permutation word is a permutation of the 24 slots. -/
structure PermOK (p : BitVec 128) : Prop where
  size_le : size 5 p ≤ 24
  lt : ∀ i, i < 24 → get 5 p i < 24
  inj : ∀ i j, i < 24 → j < 24 → get 5 p i = get 5 p j → i = j

theorem permOK_initial : PermOK (Verif.Perm.initial 128 5 24) := by
  constructor
  · decide +kernel
  · decide +kernel
  · have : ∀ i, i < 24 → ∀ j, j < 24 → get 5 (Verif.Perm.initial 128 5 24) i = get 5 (Verif.Perm.initial 128 5 24) j →
        i = j := by decide +kernel
    exact fun i j hi hj => this i hi j hj

theorem size_initial : size 5 (Verif.Perm.initial 128 5 24) = 0 := by decide +kernel

theorem permOK_makeSorted : ∀ n, n ≤ 24 → PermOK (makeSorted24 n) := by
  have h1 : ∀ n, n < 25 → size 5 (makeSorted24 n) ≤ 24 := by decide +kernel
  have h2 : ∀ n, n < 25 → ∀ i, i < 24 → get 5 (makeSorted24 n) i < 24 := by decide +kernel
  have h3 : ∀ n, n < 25 → ∀ i, i < 24 → ∀ j, j < 24 → get 5 (makeSorted24 n) i = get 5 (makeSorted24 n) j → i = j := by
    decide +kernel
  intro n hn
  exact ⟨h1 n (by omega), h2 n (by omega), fun i j hi hj => h3 n (by omega) i hi j hj⟩

theorem size_makeSorted : ∀ n, n ≤ 24 → size 5 (makeSorted24 n) = n := by
  have h1 : ∀ n, n < 25 → size 5 (makeSorted24 n) = n := by decide +kernel
  intro n hn; exact h1 n (by omega)

theorem get_makeSorted : ∀ n, n ≤ 24 → ∀ i, i < n → get 5 (makeSorted24 n) i = i := by
  have h1 : ∀ n, n < 25 → ∀ i, i < n → get 5 (makeSorted24 n) i = i := by decide +kernel
  intro n hn; exact h1 n (by omega)

theorem permOK_insert {p : BitVec 128} (h : PermOK p) (hs : size 5 p < 24) {i : Nat} (hi : i ≤ size 5 p) :
    PermOK (insertFromBack 5 24 p i).1 := by
  have hi' : i < 24 := by omega
  constructor
  · rw [Verif.Perm.size_insertFromBack params24 p hi' hs]; omega
  · intro k hk
    rw [Verif.Perm.get_insertFromBack params24 p hi' hk hs]
    split
    · exact h.lt k hk
    · split
      · exact h.lt _ (by omega)
      · exact h.lt _ (by omega)
  · intro a b ha hb e
    rw [Verif.Perm.get_insertFromBack params24 p hi' ha hs, Verif.Perm.get_insertFromBack params24 p hi' hb hs] at e
    split at e
    · split at e
      · exact h.inj a b ha hb e
      · split at e
        · have := h.inj a 23 ha (by omega) e; omega
        · have := h.inj a (b - 1) ha (by omega) e; omega
    · split at e
      · split at e
        · have := h.inj 23 b (by omega) hb e; omega
        · split at e
          · omega
          · have := h.inj 23 (b - 1) (by omega) (by omega) e; omega
      · split at e
        · have := h.inj (a - 1) b (by omega) hb e; omega
        · split at e
          · have := h.inj (a - 1) 23 (by omega) (by omega) e; omega
          · have := h.inj (a - 1) (b - 1) (by omega) (by omega) e; omega

theorem permOK_setSize {p : BitVec 128} (h : PermOK p) {n : Nat} (hn : n ≤ 24) : PermOK (setSize 5 p n) := by
  constructor
  · rw [Verif.Perm.size_setSize params24 p hn]; exact hn
  · intro k hk; rw [Verif.Perm.get_setSize params24 p hn hk]; exact h.lt k hk
  · intro a b ha hb e
    rw [Verif.Perm.get_setSize params24 p hn ha, Verif.Perm.get_setSize params24 p hn hb] at e
    exact h.inj a b ha hb e

/-! ## Inserting an entry -/

theorem insert_n {b : Leaf V} (nb : Leaf V) (hs : b.n < 24) {pos : Nat} (hp : pos ≤ b.n)
    (hperm : nb.perm = (insertFromBack 5 24 b.perm pos).1) : nb.n = b.n + 1 := by
  unfold Leaf.n at *
  rw [hperm, Verif.Perm.size_insertFromBack params24 b.perm (by omega) hs]

/-- A body that differs from `b` only in the back slot, with that slot inserted at `pos`. -/
theorem insert_ent {b nb : Leaf V} (hb : PermOK b.perm) (hs : b.n < 24) {pos : Nat} (hp : pos ≤ b.n)
    (hperm : nb.perm = (insertFromBack 5 24 b.perm pos).1)
    (hsame : ∀ s, s ≠ back 5 24 b.perm → entAt nb s = entAt b s) (j : Nat) (hj : j ≤ b.n) :
    nb.ent j = if j < pos then b.ent j else if j = pos then entAt nb (back 5 24 b.perm) else b.ent (j - 1) := by
  unfold Leaf.n at hs hp hj
  unfold Leaf.ent
  rw [hperm, Verif.Perm.get_insertFromBack params24 b.perm (by omega) (by omega) hs]
  have key : ∀ i, i < 23 → get 5 b.perm i ≠ back 5 24 b.perm := by
    intro i hi e
    have := hb.inj i 23 (by omega) (by omega) e
    omega
  split
  · exact hsame _ (key j (by omega))
  · split
    · rfl
    · exact hsame _ (key (j - 1) (by omega))

/-! ## Storing to the slot of one position -/

theorem set_ent {b nb : Leaf V} (hb : PermOK b.perm) {i : Nat} (hi : i < b.n) (hperm : nb.perm = b.perm)
    (hsame : ∀ s, s ≠ get 5 b.perm i → entAt nb s = entAt b s) (j : Nat) (hj : j < b.n) :
    nb.ent j = if j = i then entAt nb (get 5 b.perm i) else b.ent j := by
  have := hb.size_le
  unfold Leaf.n at hi hj
  unfold Leaf.ent
  rw [hperm]
  split
  · subst j; rfl
  · apply hsame
    intro e
    have := hb.inj j i (by omega) (by omega) e
    omega

/-! ## Splitting -/

theorem moveLoop_perm (p : BitVec 128) (pos : Nat) (x : Leaf V × Leaf V) (n : Nat) :
    (moveLoop p pos x n).1.perm = x.1.perm ∧ (moveLoop p pos x n).1.ikey = x.1.ikey ∧
    (moveLoop p pos x n).1.klx = x.1.klx := by
  induction n with
  | zero => exact ⟨rfl, rfl, rfl⟩
  | succ n ih =>
    simp only [moveLoop, moveOne]
    split <;> exact ih

/-- Slots not moved keep their entry. -/
theorem moveLoop_old {p : BitVec 128} {pos : Nat} {x : Leaf V × Leaf V} {s : Nat} (n : Nat)
    (h : ∀ i, i < n → get 5 p (pos + i) ≠ s) :
    (moveLoop p pos x n).1.cell s = x.1.cell s ∧ (moveLoop p pos x n).1.ksuf s = x.1.ksuf s := by
  induction n with
  | zero => exact ⟨rfl, rfl⟩
  | succ n ih =>
    have ih := ih (fun i hi => h i (by omega))
    have hn : s ≠ get 5 p (pos + n) := fun e => h n (by omega) e.symm
    simp only [moveLoop, moveOne]
    split
    · simp only [upd, hn, if_false]; exact ih
    · simp only [upd, hn, if_false]; exact ih

theorem moveLoop_new {p : BitVec 128} (hp : PermOK p) {pos : Nat} {b : Leaf V} (n : Nat) (hn : pos + n ≤ 24) (i : Nat)
    (hi : i < n) : entAt (moveLoop p pos (b, emptyLeaf) n).2 i = entAt b (get 5 p (pos + i)) := by
  have hzero : ∀ n, ∀ j, n ≤ j → (moveLoop p pos (b, emptyLeaf) n).2.ksuf j = none := by
    intro n
    induction n with
    | zero => intro j _; rfl
    | succ n ih =>
      intro j hj
      have hne : j ≠ n := by omega
      simp only [moveLoop, moveOne]
      split
      · split
        · simp only [upd, hne, if_false]; exact ih j (by omega)
        · exact ih j (by omega)
      · exact ih j (by omega)
  induction n with
  | zero => omega
  | succ n ih =>
    have hold := moveLoop_old (x := (b, emptyLeaf)) (s := get 5 p (pos + n)) n (p := p) (pos := pos) (by
      intro i hi e
      have := hp.inj _ _ (by omega) (by omega) e
      omega)
    obtain ⟨hpm, hik, hkl⟩ := moveLoop_perm p pos (b, emptyLeaf) n
    by_cases e : i = n
    · subst e
      have hz := hzero i i (Nat.le_refl _)
      simp only [moveLoop, moveOne, entAt, Leaf.suf]
      by_cases hk : (moveLoop p pos (b, emptyLeaf) i).1.klx (get 5 p (pos + i)) = ksufKeylenx
      · have hk' : b.klx (get 5 p (pos + i)) = ksufKeylenx := by rw [← hk, hkl]
        rw [if_pos hk]
        cases hsf : (moveLoop p pos (b, emptyLeaf) i).1.ksuf (get 5 p (pos + i)) with
        | none =>
          have hb0 : b.ksuf (get 5 p (pos + i)) = none := by rw [← hold.2, hsf]
          simp [upd, hik, hkl, hold.1, hk', hz, hb0]
        | some sfx =>
          have hb0 : b.ksuf (get 5 p (pos + i)) = some sfx := by rw [← hold.2, hsf]
          simp [upd, hik, hkl, hold.1, hk', hb0]
      · have hk' : ¬ b.klx (get 5 p (pos + i)) = ksufKeylenx := by rw [← hkl]; exact hk
        rw [if_neg hk]
        simp [upd, hik, hkl, hold.1, hk']
    · have ih := ih (by omega) (by omega)
      rw [← ih]
      simp only [moveLoop, moveOne, entAt, Leaf.suf]
      split
      · split
        · simp [upd, e]
        · simp [upd, e]
      · simp [upd, e]

/-- Everything about `split_into_preallocated`: the left leaf keeps the first `pos` entries, the right leaf gets the rest
in slots `0, 1, ..`, and the split key is the chunk of the first moved entry. -/
theorem splitLeaf_spec {b : Leaf V} (hb : PermOK b.perm) {pos : Nat} (h0 : 0 < pos) (hp : pos < b.n) :
    let x := splitLeaf b pos
    x.1.n = pos ∧ x.2.1.n = b.n - pos ∧ PermOK x.1.perm ∧ PermOK x.2.1.perm ∧
    (∀ j, j < pos → x.1.ent j = b.ent j) ∧ (∀ j, j < b.n - pos → x.2.1.ent j = b.ent (pos + j)) ∧
    x.2.2 = (b.ent pos).ikey ∧
    (∀ j, j < 24 → get 5 x.1.perm j = get 5 b.perm j) ∧ x.1.ikey = b.ikey ∧
    get 5 x.2.1.perm 0 = 0 ∧ x.2.1.ikey 0 = (b.ent pos).ikey := by
  have hn := hb.size_le
  have hpn : pos ≤ 24 := by unfold Leaf.n at hp; omega
  have hm : b.n - pos ≤ 24 := by unfold Leaf.n; omega
  have hm1 : 1 ≤ b.n - pos := by omega
  obtain ⟨hpm, hik, hkl⟩ := moveLoop_perm b.perm pos (b, emptyLeaf) (b.n - pos)
  have hg0 : get 5 (makeSorted24 (b.n - pos)) 0 = 0 := get_makeSorted _ hm 0 (by omega)
  have hnew : ∀ j, j < b.n - pos → entAt (moveLoop b.perm pos (b, emptyLeaf) (b.n - pos)).2 j = b.ent (pos + j) := by
    intro j hj
    exact moveLoop_new hb _ (by unfold Leaf.n; unfold Leaf.n at hp; omega) j hj
  have hnew0 := congrArg Ent.ikey (hnew 0 (by omega))
  simp only [Nat.add_zero] at hnew0
  refine ⟨?_, ?_, ?_, ?_, ?_, ?_, ?_, ?_, hik, hg0, hnew0⟩
  · exact Verif.Perm.size_setSize params24 _ hpn
  · exact size_makeSorted _ hm
  · exact permOK_setSize hb hpn
  · exact permOK_makeSorted _ hm
  · intro j hj
    unfold Leaf.n at hp
    show entAt _ (get 5 (setSize 5 b.perm pos) j) = _
    rw [Verif.Perm.get_setSize params24 _ hpn (by omega)]
    obtain ⟨hc, hsf⟩ := moveLoop_old (x := (b, emptyLeaf)) (s := get 5 b.perm j) (b.n - pos) (p := b.perm) (pos := pos) (by
      intro i hi e
      unfold Leaf.n at hi
      have := hb.inj _ _ (by omega) (by omega) e
      omega)
    show (⟨_, _, _, _⟩ : Ent V) = ⟨_, _, _, _⟩
    simp only [Leaf.suf]
    congr 1
    · exact congrFun hik _
    · exact congrFun hkl _
    · show (if (moveLoop b.perm pos (b, emptyLeaf) (b.n - pos)).1.klx _ = _ then
          (moveLoop b.perm pos (b, emptyLeaf) (b.n - pos)).1.ksuf _ else none) = _
      rw [hkl, hsf]
  · intro j hj
    show entAt _ (get 5 (makeSorted24 (b.n - pos)) j) = _
    rw [get_makeSorted _ hm j hj]
    exact hnew j hj
  · show (moveLoop b.perm pos (b, emptyLeaf) (b.n - pos)).2.ikey (get 5 (makeSorted24 (b.n - pos)) 0) = _
    rw [hg0]; exact hnew0
  · intro j hj
    exact Verif.Perm.get_setSize params24 _ hpn hj

end Verif.Tree
