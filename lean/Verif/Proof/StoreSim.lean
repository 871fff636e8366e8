import Verif.Proof.Own
import Verif.Proof.TreeMap
set_option linter.unusedSimpArgs false
set_option linter.unusedVariables false
/-!
# The insert with ownership does what the insert of values does

If every cell of the heap has exactly as many owners as there are slots, handles and retirements for it, then the insert of
`Model/Store.lean` never fails, keeps that equation, and stores and returns the same values as `Model/Tree.lean`.
-/
namespace Verif.Store
open Verif.Spec (Bytes)
open Verif.Internode (upd)
open Verif.Perm (size get back backAtOffset insertFromBack swapFreeSlots params24 makeSorted24)
open Verif.Tree (Tree Leaf Cell Err Tidy TidyB refs leafRefs ind PermOK)

variable {V O : Type}

/-- 1 if equal. -/
def one (a p : Nat) : Nat := if a = p then 1 else 0

/-- A heap is sound: cells not yet allocated are untouched; an allocated cell is dropped once exactly when it has no owner. -/
structure WF (h : Heap V) : Prop where
  out : ∀ a, h.fresh ≤ a → h.rc a = 0 ∧ h.drops a = 0
  drop : ∀ a, a < h.fresh → h.drops a = if h.rc a = 0 then 1 else 0

/-- `h'` is a later sound heap; with `g = false` nothing was allocated. -/
structure Ext (g : Bool) (h h' : Heap V) : Prop where
  wf : WF h'
  fresh : h.fresh ≤ h'.fresh
  val : ∀ a, a < h.fresh → h'.val a = h.val a
  keep : g = false → h'.fresh = h.fresh

theorem Ext.trans {g : Bool} {a b c : Heap V} (x : Ext g a b) (y : Ext g b c) : Ext g a c :=
  ⟨y.wf, Nat.le_trans x.fresh y.fresh, fun i hi => (y.val i (Nat.lt_of_lt_of_le hi x.fresh)).trans (x.val i hi),
    fun h => (y.keep h).trans (x.keep h)⟩

theorem WF.lt {h : Heap V} (w : WF h) {a : Nat} (ha : 0 < h.rc a) : a < h.fresh := by
  by_contra c
  have := (w.out a (by omega)).1
  omega

/-- What the storage operations have to do. -/
structure Lawful (S : SlotOps V O) where
  /-- do stores into slots allocate? -/
  grow : Bool
  /-- how many owners of a cell an output accounts for -/
  own : O → Nat → Nat
  /-- the value of an output -/
  look : Heap V → O → V
  look_ext : ∀ {g h h' o}, WF h → Ext g h h' → (∀ a, own o a ≤ h.rc a) → look h' o = look h o
  intoOutput : ∀ {h}, WF h → ∀ v, Ext true h (S.intoOutput h v).1 ∧ look (S.intoOutput h v).1 (S.intoOutput h v).2 = v ∧
    (∀ a, (S.intoOutput h v).1.rc a = h.rc a + own (S.intoOutput h v).2 a) ∧
    (grow = false → (S.intoOutput h v).1.fresh = h.fresh + 1 ∧ (S.intoOutput h v).1.val h.fresh = v)
  toRaw : ∀ {h o}, WF h → (∀ a, own o a ≤ h.rc a) → ∃ h' p, S.toRaw h o = .ok (h', p) ∧ Ext grow h h' ∧ h'.val p = look h o ∧
    ∀ a, h'.rc a = h.rc a + one a p
  consume : ∀ {h o}, WF h → (∀ a, own o a ≤ h.rc a) → ∃ h' p, S.consume h o = .ok (h', p) ∧ Ext grow h h' ∧
    h'.val p = look h o ∧ ∀ a, h'.rc a + own o a = h.rc a + one a p
  fromRaw : ∀ {h p}, WF h → 0 < h.rc p → ∃ h' o, S.fromRaw h p = .ok (h', o) ∧ Ext grow h h' ∧ look h' o = h.val p ∧
    ∀ a, h'.rc a = h.rc a + own o a
  clone : ∀ {h o}, WF h → (∀ a, own o a ≤ h.rc a) → ∃ h' o', S.clone h o = .ok (h', o') ∧ Ext grow h h' ∧
    look h' o' = look h o ∧ ∀ a, h'.rc a = h.rc a + own o' a
  dropOut : ∀ {h o}, WF h → (∀ a, own o a ≤ h.rc a) → ∃ h', S.dropOut h o = .ok h' ∧ Ext grow h h' ∧
    ∀ a, h'.rc a + own o a = h.rc a
  cleanup : ∀ {h p}, WF h → 0 < h.rc p → ∃ h', S.cleanup h p = .ok h' ∧ Ext grow h h' ∧ ∀ a, h'.rc a + one a p = h.rc a
  deref : ∀ {h o}, WF h → (∀ a, own o a ≤ h.rc a) → S.deref h o = .ok (look h o)

/-! ## The two storage modes are lawful -/

theorem alloc_law {h : Heap V} (w : WF h) (v : V) : Ext true h (h.alloc v).1 ∧ (h.alloc v).1.val (h.alloc v).2 = v ∧
    (∀ a, (h.alloc v).1.rc a = h.rc a + one a (h.alloc v).2) ∧ (h.alloc v).1.fresh = h.fresh + 1 ∧
    (h.alloc v).1.val h.fresh = v := by
  have hr : ∀ a, (h.alloc v).1.rc a = h.rc a + one a h.fresh := by
    intro a
    simp only [Heap.alloc, upd, one]
    by_cases e : a = h.fresh
    · subst e; simp [(w.out h.fresh (Nat.le_refl _)).1]
    · simp [e]
  refine ⟨⟨⟨fun a ha => ?_, fun a ha => ?_⟩, Nat.le_succ _, fun a ha => ?_, fun e => by cases e⟩, ?_, hr, rfl, ?_⟩
  · have ha : h.fresh + 1 ≤ a := ha
    refine ⟨?_, (w.out a (by omega)).2⟩
    rw [hr, (w.out a (by omega)).1]
    simp only [one]; rw [if_neg (by omega)]
  · have ha : a < h.fresh + 1 := ha
    rw [hr]
    change h.drops a = _
    by_cases e : a = h.fresh
    · subst e
      simp [(w.out h.fresh (Nat.le_refl _)).1, (w.out h.fresh (Nat.le_refl _)).2, one]
    · rw [w.drop a (by omega)]
      simp [one, e]
  · simp only [Heap.alloc, upd]; rw [if_neg (by omega)]
  · simp [Heap.alloc, upd]
  · simp [Heap.alloc, upd]

theorem incr_law {h : Heap V} (w : WF h) {p : Nat} (hp : 0 < h.rc p) : ∃ h', h.incr p = .ok h' ∧ Ext false h h' ∧
    h'.val = h.val ∧ ∀ a, h'.rc a = h.rc a + one a p := by
  refine ⟨{ h with rc := upd h.rc p (h.rc p + 1) }, by unfold Heap.incr; rw [if_neg (by omega)], ?_, rfl, ?_⟩
  · refine ⟨⟨fun a ha => ?_, fun a ha => ?_⟩, Nat.le_refl _, fun _ _ => rfl, fun _ => rfl⟩
    · have := w.lt hp
      have ha : h.fresh ≤ a := ha
      refine ⟨?_, (w.out a ha).2⟩
      simp only [upd]; rw [if_neg (by omega)]
      exact (w.out a ha).1
    · have := w.drop a ha
      simp only [upd]
      change h.drops a = _
      rw [this]
      by_cases e : a = p
      · subst e; simp; omega
      · simp [e]
  · intro a
    simp only [upd, one]
    by_cases e : a = p
    · subst e; simp
    · simp [e]

theorem decr_law {h : Heap V} (w : WF h) {p : Nat} (hp : 0 < h.rc p) : ∃ h', h.decr p = .ok h' ∧ Ext false h h' ∧
    ∀ a, h'.rc a + one a p = h.rc a := by
  refine ⟨_, by unfold Heap.decr; rw [if_neg (by omega)], ?_, ?_⟩
  · refine ⟨⟨fun a ha => ?_, fun a ha => ?_⟩, Nat.le_refl _, fun _ _ => rfl, fun _ => rfl⟩
    · have := w.lt hp
      have ha : h.fresh ≤ a := ha
      have h1 := w.out a ha
      constructor
      · simp only [upd]; rw [if_neg (by omega)]
        exact h1.1
      · simp only
        split
        · simp only [upd]; rw [if_neg (by omega)]; exact h1.2
        · exact h1.2
    · have := w.drop a ha
      simp only
      by_cases e : a = p
      · subst e
        rw [if_neg (by omega)] at this
        by_cases c : h.rc a = 1
        · simp [upd, c, this]
        · simp only [if_neg c, upd, if_true]
          rw [this, if_neg (by omega)]
      · have e2 : (if h.rc p = 1 then upd h.drops p (h.drops p + 1) else h.drops) a = h.drops a := by
          split
          · simp [upd, e]
          · rfl
        rw [e2, this]
        simp [upd, e]
  · intro a
    simp only [upd, one]
    by_cases e : a = p
    · subst e; simp; omega
    · simp [e]

theorem one_pos {p : Nat} {h : Heap V} (x : ∀ a, one a p ≤ h.rc a) : 0 < h.rc p := by
  have := x p
  simp [one] at this
  omega

theorem Ext.refl {g : Bool} {h : Heap V} (w : WF h) : Ext g h h := ⟨w, Nat.le_refl _, fun _ _ => rfl, fun _ => rfl⟩

/-- `MassTree`: outputs are `Arc`s. -/
def arcLawful (V : Type) : Lawful (arcOps V) where
  grow := false
  own o a := one a o
  look h o := h.val o
  look_ext w x ho := x.val _ (w.lt (one_pos ho))
  intoOutput w v := by
    obtain ⟨h1, h2, h3, h4, h5⟩ := alloc_law w v
    exact ⟨h1, h2, h3, fun _ => ⟨h4, h5⟩⟩
  toRaw {h o} w ho := by
    obtain ⟨h', e, x, ev, r⟩ := incr_law w (one_pos ho)
    exact ⟨h', o, by simp only [arcOps, e, bind, Except.bind], x, by rw [ev], r⟩
  consume {h o} w ho := ⟨h, o, rfl, Ext.refl w, rfl, fun a => rfl⟩
  fromRaw {h p} w hp := by
    obtain ⟨h', e, x, ev, r⟩ := incr_law w hp
    exact ⟨h', p, by simp only [arcOps, e, bind, Except.bind], x, by rw [ev], r⟩
  clone {h o} w ho := by
    obtain ⟨h', e, x, ev, r⟩ := incr_law w (one_pos ho)
    exact ⟨h', o, by simp only [arcOps, e, bind, Except.bind], x, by rw [ev], r⟩
  dropOut {h o} w ho := by
    obtain ⟨h', e, x, r⟩ := decr_law w (one_pos ho)
    exact ⟨h', e, x, r⟩
  cleanup {h p} w hp := by
    obtain ⟨h', e, x, r⟩ := decr_law w hp
    exact ⟨h', e, x, r⟩
  deref {h o} w ho := by
    have := one_pos ho
    simp only [arcOps, Heap.read]
    rw [if_neg (by omega)]

/-- `MassTree24Inline`: outputs are plain values. -/
def boxLawful (V : Type) : Lawful (boxOps V) where
  grow := true
  own _ _ := 0
  look _ o := o
  look_ext _ _ _ := rfl
  intoOutput w v := ⟨Ext.refl w, rfl, fun _ => rfl, fun e => by cases e⟩
  toRaw {h o} w ho := by
    obtain ⟨h1, h2, h3, -⟩ := alloc_law w o
    exact ⟨_, _, rfl, h1, h2, h3⟩
  consume {h o} w ho := by
    obtain ⟨h1, h2, h3, -⟩ := alloc_law w o
    exact ⟨_, _, rfl, h1, h2, h3⟩
  fromRaw {h p} w hp := by
    refine ⟨h, h.val p, ?_, Ext.refl w, rfl, fun a => rfl⟩
    simp only [boxOps, Heap.read, bind, Except.bind]
    rw [if_neg (by omega)]
  clone {h o} w ho := ⟨h, o, rfl, Ext.refl w, rfl, fun a => rfl⟩
  dropOut {h o} w ho := ⟨h, rfl, Ext.refl w, fun a => rfl⟩
  cleanup {h p} w hp := by
    obtain ⟨h', e, x, r⟩ := decr_law w hp
    exact ⟨h', e, ⟨x.wf, x.fresh, x.val, fun e => by cases e⟩, r⟩
  deref w ho := rfl

/-! ## Leaf bodies after a store -/

theorem ind_one (p a : Nat) : ind (.val p) a = one a p := by simp [one]

theorem tidyB_replace {b nb : Leaf Nat} (h : TidyB b) {s p old : Nat} (hs : b.cell s = .val old) (e1 : nb.perm = b.perm)
    (e2 : nb.cell = upd b.cell s (.val p)) (e3 : nb.klx = b.klx) : TidyB nb := by
  refine ⟨by rw [e1]; exact h.perm, fun s' hs' => ?_, fun s' v hv => ?_, fun s' v hv => ?_⟩
  · have h1 : b.cell s' = .null := h.free s' (by unfold Leaf.n at hs' ⊢; rw [e1] at hs'; exact hs')
    have : s' ≠ s := by rintro rfl; rw [hs] at h1; cases h1
    rw [e2]; simp only [upd, this, if_false]; exact h1
  · rw [e3]
    rw [e2] at hv
    by_cases e : s' = s
    · subst e; exact h.val _ _ hs
    · simp only [upd, e, if_false] at hv; exact h.val _ _ hv
  · rw [e3]
    rw [e2] at hv
    by_cases e : s' = s
    · subst e; simp [upd] at hv
    · simp only [upd, e, if_false] at hv; exact h.layer _ _ hv

theorem tidyB_layer {b nb : Leaf Nat} (h : TidyB b) {s p : Nat} (hs : b.cell s ≠ .null ∨ ∃ j, j < b.n ∧ get 5 b.perm j = s)
    (e1 : nb.perm = b.perm) (e2 : nb.cell = upd b.cell s (.layer p)) (e3 : nb.klx = upd b.klx s 128) : TidyB nb := by
  refine ⟨by rw [e1]; exact h.perm, fun s' hs' => ?_, fun s' v hv => ?_, fun s' v hv => ?_⟩
  · have h0 : ∀ j, j < b.n → get 5 b.perm j ≠ s' := by unfold Leaf.n at hs' ⊢; rw [e1] at hs'; exact hs'
    have h1 : b.cell s' = .null := h.free s' h0
    have : s' ≠ s := by
      rintro rfl
      rcases hs with hs | ⟨j, hj, e⟩
      · exact hs h1
      · exact h0 j hj e
    rw [e2]; simp only [upd, this, if_false]; exact h1
  · rw [e2] at hv
    by_cases e : s' = s
    · subst e; simp [upd] at hv
    · simp only [upd, e, if_false] at hv; rw [e3]; simp only [upd, e, if_false]; exact h.val _ _ hv
  · rw [e2] at hv
    by_cases e : s' = s
    · subst e; rw [e3]; simp [upd]
    · simp only [upd, e, if_false] at hv; rw [e3]; simp only [upd, e, if_false]; exact h.layer _ _ hv

theorem tidyB_add {b nb : Leaf Nat} (h : TidyB b) {s p j0 : Nat} (hj0 : j0 < nb.n) (hg : get 5 nb.perm j0 = s) (hp : PermOK nb.perm)
    (hfree : ∀ j, j < b.n → ∃ j', j' < nb.n ∧ get 5 nb.perm j' = get 5 b.perm j)
    (e2 : nb.cell = upd b.cell s (.val p)) (e3 : ∃ n, n < 128 ∧ nb.klx = upd b.klx s n) : TidyB nb := by
  obtain ⟨n, hn, e3⟩ := e3
  refine ⟨hp, fun s' hs' => ?_, fun s' v hv => ?_, fun s' v hv => ?_⟩
  · have : s' ≠ s := fun e => hs' j0 hj0 (hg.trans e.symm)
    rw [e2]; simp only [upd, this, if_false]
    refine h.free s' fun j hj e => ?_
    obtain ⟨j', hj', e'⟩ := hfree j hj
    exact hs' j' hj' (e'.trans e)
  · rw [e2] at hv
    by_cases e : s' = s
    · subst e; rw [e3]; simp only [upd, if_true]; exact hn
    · simp only [upd, e, if_false] at hv; rw [e3]; simp only [upd, e, if_false]; exact h.val _ _ hv
  · rw [e2] at hv
    by_cases e : s' = s
    · subst e; simp [upd] at hv
    · simp only [upd, e, if_false] at hv; rw [e3]; simp only [upd, e, if_false]; exact h.layer _ _ hv

theorem assignSlot_cell (b : Leaf Nat) (s : Nat) (k : Key) (p : Nat) : (Tree.assignSlot b s k p).cell = upd b.cell s (.val p) ∧
    ∃ n, n < 128 ∧ (Tree.assignSlot b s k p).klx = upd b.klx s n := by
  unfold Tree.assignSlot
  by_cases h : k.hasSuffix = true
  · rw [if_pos h]; exact ⟨rfl, 64, by omega, rfl⟩
  · rw [if_neg h]; refine ⟨rfl, k.currentLen, ?_, rfl⟩
    have : ¬ 8 < k.currentLen := fun c => h (decide_eq_true (show ikeySize < k.currentLen from c))
    omega

theorem assignFromKey_cell (b : Leaf Nat) (s : Nat) (k : Key) (p : Nat) : (Tree.assignFromKey b s k p).cell = upd b.cell s (.val p) ∧
    ∃ n, n < 128 ∧ (Tree.assignFromKey b s k p).klx = upd b.klx s n := by
  unfold Tree.assignFromKey
  by_cases h : k.hasSuffix = true
  · rw [if_pos h]; exact ⟨rfl, 64, by omega, rfl⟩
  · rw [if_neg h]; exact ⟨rfl, min k.currentLen 8, by omega, rfl⟩

/-- Inserting the back slot. -/
theorem insert_used {p : BitVec 128} (hs : size 5 p < 24) {pos : Nat} (hpos : pos ≤ size 5 p) :
    get 5 (insertFromBack 5 24 p pos).1 pos = get 5 p 23 ∧ pos < size 5 (insertFromBack 5 24 p pos).1 ∧
    ∀ j, j < size 5 p → ∃ j', j' < size 5 (insertFromBack 5 24 p pos).1 ∧ get 5 (insertFromBack 5 24 p pos).1 j' = get 5 p j := by
  have e := Verif.Perm.size_insertFromBack params24 p (i := pos) (by omega) hs
  refine ⟨?_, by omega, fun j hj => ?_⟩
  · rw [Verif.Perm.get_insertFromBack params24 p (by omega) (by omega) hs]; simp
  · by_cases c : j < pos
    · refine ⟨j, by omega, ?_⟩
      rw [Verif.Perm.get_insertFromBack params24 p (by omega) (by omega) hs, if_pos c]
    · refine ⟨j + 1, by omega, ?_⟩
      rw [Verif.Perm.get_insertFromBack params24 p (by omega) (by omega) hs, if_neg (by omega), if_neg (by omega)]
      rfl

theorem permOK_swap {p : BitVec 128} (h : PermOK p) {i j : Nat} (hi : i < 24) (hj : j < 24) : PermOK (swapFreeSlots 5 p i j) := by
  rw [Verif.Perm.swapFreeSlots_eq_exchange]
  refine ⟨by rw [Verif.Perm.size_exchange params24]; exact h.size_le, fun k hk => ?_, fun a b ha hb e => ?_⟩
  · rw [Verif.Perm.get_exchange params24 p hi hj hk]
    split
    · exact h.lt j hj
    · split
      · exact h.lt i hi
      · exact h.lt k hk
  · rw [Verif.Perm.get_exchange params24 p hi hj ha, Verif.Perm.get_exchange params24 p hi hj hb] at e
    have H := h.inj
    split at e
    · split at e
      · omega
      · split at e
        · have := H _ _ hj hi e; omega
        · have := H _ _ hj hb e; omega
    · split at e
      · split at e
        · have := H _ _ hi hj e; omega
        · split at e
          · omega
          · have := H _ _ hi hb e; omega
      · split at e
        · have := H _ _ ha hj e; omega
        · split at e
          · have := H _ _ ha hi e; omega
          · exact H _ _ ha hb e

theorem findAlt_spec {p : BitVec 128} : ∀ {n off alt o : Nat}, Tree.findAlt p off n = some (alt, o) →
    off ≤ o ∧ o < off + n ∧ alt = get 5 p (23 - o)
  | 0, off, alt, o, h => by cases h
  | n + 1, off, alt, o, h => by
    simp only [Tree.findAlt] at h
    split at h
    · cases h
      exact ⟨by omega, by omega, rfl⟩
    · have := findAlt_spec h
      omega

theorem searchForInsert_pos (b : Leaf Nat) (k : Key) : ∀ {n i pos}, Tree.searchForInsert b k i n = .notFound pos → pos ≤ i + n
  | 0, i, pos, h => by cases h; omega
  | n + 1, i, pos, h => by
    simp only [Tree.searchForInsert] at h
    have ih := @searchForInsert_pos b k n (i + 1) pos
    by_cases c1 : b.ikey (get 5 b.perm i) = k.ikey
    · rw [if_pos c1] at h
      cases hc : b.cell (get 5 b.perm i) with
      | null => rw [hc] at h; have := ih h; omega
      | val v =>
        rw [hc] at h; simp only at h
        split at h
        · split at h
          · cases h
          · have := ih h; omega
        · split at h
          · split at h
            · split at h <;> cases h
            · cases h
          · split at h
            · cases h
            · have := ih h; omega
      | layer v =>
        rw [hc] at h; simp only at h
        split at h
        · split at h
          · cases h
          · have := ih h; omega
        · split at h
          · split at h
            · split at h <;> cases h
            · cases h
          · split at h
            · cases h
            · have := ih h; omega
    · rw [if_neg c1] at h
      split at h
      · cases h; omega
      · have := ih h; omega

/-- The final leaf of a new layer. -/
theorem finalLeaf_own (ek : Key) (ep : Nat) (nk : Key) (np : Nat) (c : Ordering) : TidyB (Tree.finalLeaf ek ep nk np c) ∧
    ∀ a, leafRefs (Tree.finalLeaf ek ep nk np c) a = one a ep + one a np := by
  have key : ∀ (k1 k2 : Key) (p1 p2 : Nat), TidyB ({ Tree.assignFromKey (Tree.assignFromKey Tree.emptyLeaf 0 k1 p1) 1 k2 p2 with perm := makeSorted24 2 }) ∧
      ∀ a, leafRefs ({ Tree.assignFromKey (Tree.assignFromKey Tree.emptyLeaf 0 k1 p1) 1 k2 p2 with perm := makeSorted24 2 }) a = one a p1 + one a p2 := by
    intro k1 k2 p1 p2
    obtain ⟨c1, n1, hn1, l1⟩ := assignFromKey_cell Tree.emptyLeaf 0 k1 p1
    obtain ⟨c2, n2, hn2, l2⟩ := assignFromKey_cell (Tree.assignFromKey Tree.emptyLeaf 0 k1 p1) 1 k2 p2
    rw [c1] at c2
    rw [l1] at l2
    have hcell : ∀ s, (Tree.assignFromKey (Tree.assignFromKey Tree.emptyLeaf 0 k1 p1) 1 k2 p2).cell s =
        if s = 1 then .val p2 else if s = 0 then .val p1 else .null := by
      intro s; rw [c2]; rfl
    refine ⟨⟨Tree.permOK_makeSorted 2 (by omega), fun s hs => ?_, fun s v hv => ?_, fun s v hv => ?_⟩, fun a => ?_⟩
    · change (Tree.assignFromKey (Tree.assignFromKey Tree.emptyLeaf 0 k1 p1) 1 k2 p2).cell s = .null
      rw [hcell]
      have e2 : size 5 (makeSorted24 2) = 2 := Tree.size_makeSorted 2 (by omega)
      have h0 := hs 0 (by unfold Leaf.n; rw [e2]; omega)
      have h1 := hs 1 (by unfold Leaf.n; rw [e2]; omega)
      have g0 := Tree.get_makeSorted 2 (by omega) 0 (by omega)
      have g1 := Tree.get_makeSorted 2 (by omega) 1 (by omega)
      simp only [g0, g1] at h0 h1
      rw [if_neg (by omega), if_neg (by omega)]
    · change (Tree.assignFromKey (Tree.assignFromKey Tree.emptyLeaf 0 k1 p1) 1 k2 p2).klx s < 128
      rw [l2]
      simp only [upd]
      split
      · exact hn2
      · split
        · exact hn1
        · change 0 < 128; omega
    · change (Tree.assignFromKey (Tree.assignFromKey Tree.emptyLeaf 0 k1 p1) 1 k2 p2).cell s = .layer v at hv
      rw [hcell] at hv
      split at hv
      · cases hv
      · split at hv <;> cases hv
    · have r1 := Tree.leafRefs_upd (b := Tree.emptyLeaf) (s := 0) (by omega) (assignFromKey_cell Tree.emptyLeaf 0 k1 p1).1 a
      have r2 := Tree.leafRefs_upd (b := Tree.assignFromKey Tree.emptyLeaf 0 k1 p1) (s := 1) (by omega)
        (assignFromKey_cell (Tree.assignFromKey Tree.emptyLeaf 0 k1 p1) 1 k2 p2).1 a
      rw [Tree.leafRefs_null (b := Tree.emptyLeaf) (fun _ => rfl)] at r1
      rw [c1] at r2
      rw [Tree.leafRefs_congr (nb := { Tree.assignFromKey (Tree.assignFromKey Tree.emptyLeaf 0 k1 p1) 1 k2 p2 with perm := makeSorted24 2 })
        (b := Tree.assignFromKey (Tree.assignFromKey Tree.emptyLeaf 0 k1 p1) 1 k2 p2) rfl]
      have z1 : ind (Tree.emptyLeaf.cell 0) a = 0 := Tree.ind_null a
      have z2 : ind (upd Tree.emptyLeaf.cell 0 (.val p1) 1) a = 0 := Tree.ind_null a
      rw [ind_one] at r1 r2
      omega
  unfold Tree.finalLeaf
  cases c with
  | lt => exact key ek nk ep np
  | gt =>
    have := key nk ek np ep
    refine ⟨this.1, fun a => ?_⟩
    have := this.2 a
    simp only [Bool.false_eq_true, if_false] at this ⊢
    omega
  | eq =>
    by_cases h : ek.currentLen ≤ nk.currentLen
    · simp only [h, decide_true, if_true]; exact key ek nk ep np
    · simp only [h, decide_false, Bool.false_eq_true, if_false]
      have := key nk ek np ep
      exact ⟨this.1, fun a => (this.2 a).trans (Nat.add_comm _ _)⟩

/-! ## Creating a sublayer -/

theorem leafRefs_layer0 {b : Leaf Nat} (h : ∀ s, b.cell s = .null) (q a : Nat) :
    leafRefs ({ b with klx := upd b.klx 0 Tree.layerKeylenx, cell := upd b.cell 0 (.layer q) }) a = 0 := by
  have := Tree.leafRefs_upd (b := b) (nb := { b with klx := upd b.klx 0 Tree.layerKeylenx, cell := upd b.cell 0 (.layer q) })
    (s := 0) (by omega) rfl a
  rw [Tree.leafRefs_null h, h 0] at this
  simp only [Tree.ind_null, Tree.ind_layer] at this
  omega

/-- A twig leaf that is not linked to the next one yet. -/
structure Open (t0 t : Tree Nat) (tail : Nat) : Prop where
  kind : t.kind tail = some .leaf
  new : t0.fresh ≤ tail
  cell : ∀ s, (t.body tail).cell s = .null
  used : ∃ j, j < (t.body tail).n ∧ get 5 (t.body tail).perm j = 0

/-- What the creation of new leaves keeps. -/
structure Grown (t0 t : Tree Nat) : Prop where
  tidy : Tidy t
  fresh : t0.fresh ≤ t.fresh
  body : ∀ p, p < t0.fresh → t.body p = t0.body p
  kind : ∀ p, p < t0.fresh → t.kind p = t0.kind p

/-- `set_keylenx; set_layer` on the last twig. -/
abbrev linkTail (t : Tree Nat) (tail q : Nat) : Tree Nat :=
  { t with body := upd t.body tail { (t.body tail) with klx := upd (t.body tail).klx 0 Tree.layerKeylenx, cell := upd (t.body tail).cell 0 (.layer q) } }

theorem Open.link {t0 t : Tree Nat} {tail q : Nat} (h : Open t0 t tail) (g : Grown t0 t) :
    Grown t0 (linkTail t tail q) ∧
    ∀ a, refs (linkTail t tail q) a = refs t a := by
  have hb := tidyB_layer (nb := { (t.body tail) with klx := upd (t.body tail).klx 0 Tree.layerKeylenx, cell := upd (t.body tail).cell 0 (.layer q) }) (g.tidy.body tail) (s := 0) (p := q) (Or.inr h.used) rfl rfl rfl
  refine ⟨⟨g.tidy.setBody h.kind hb rfl rfl rfl, g.fresh, fun p hp => ?_, g.kind⟩, fun a => ?_⟩
  · have := h.new
    simp only [upd]
    rw [if_neg (by omega)]
    exact g.body p hp
  · have e := Tree.refs_setBody (t := t) (t' := (linkTail t tail q)) (g.tidy.lt h.kind) rfl rfl a
    rw [Tree.leafRefs_null h.cell, leafRefs_layer0 h.cell] at e
    exact e

theorem Grown.alloc {t0 t : Tree Nat} (g : Grown t0 t) {r lk : Bool} {b : Leaf Nat} (hb : TidyB b) :
    Grown t0 (Tree.allocLeaf t r lk b).1 := by
  refine ⟨g.tidy.allocLeaf r lk hb, Nat.le_succ_of_le g.fresh, fun p hp => ?_, fun p hp => ?_⟩
  · have := g.fresh
    simp only [Tree.allocLeaf, upd]; rw [if_neg (by omega)]; exact g.body p hp
  · have := g.fresh
    simp only [Tree.allocLeaf, upd]; rw [if_neg (by omega)]; exact g.kind p hp

theorem twigBody_tidy (ik : Nat) : TidyB ({ Tree.emptyLeaf with ikey := upd (fun _ => 0) 0 ik, perm := makeSorted24 1 } : Leaf Nat) :=
  ⟨Tree.permOK_makeSorted 1 (by omega), fun _ _ => rfl, fun _ _ h => (by cases h), fun _ _ h => (by cases h)⟩

theorem twigLoop_own {t0 : Tree Nat} : ∀ n {t : Tree Nat} {hd tl ek nk c x}, Grown t0 t → (hd.isSome → Open t0 t tl) →
    Tree.twigLoop n t hd tl ek nk c = .ok x → Grown t0 x.1 ∧ (x.2.1.isSome → Open t0 x.1 x.2.2.1) ∧ ∀ a, refs x.1 a = refs t a
  | 0, t, hd, tl, ek, nk, c, x, _, _, h => by cases h
  | n + 1, t, hd, tl, ek, nk, c, x, g, ho, h => by
    have ih := @twigLoop_own t0 n
    simp only [Tree.twigLoop] at h
    by_cases cc : c = .eq ∧ ek.hasSuffix ∧ nk.hasSuffix
    · rw [if_pos cc] at h
      have hb := twigBody_tidy ek.ikey
      have g1 := g.alloc (r := true) (lk := false) hb
      have r1 := fun a => Tree.refs_allocLeaf t true false { Tree.emptyLeaf with ikey := upd (fun _ => 0) 0 ek.ikey, perm := makeSorted24 1 } a
      have r1' : ∀ a, refs (Tree.allocLeaf t true false { Tree.emptyLeaf with ikey := upd (fun _ => 0) 0 ek.ikey, perm := makeSorted24 1 }).1 a = refs t a := by
        intro a; rw [r1 a, Tree.leafRefs_null (fun _ => rfl)]; rfl
      have o1 : Open t0 (Tree.allocLeaf t true false { Tree.emptyLeaf with ikey := upd (fun _ => 0) 0 ek.ikey, perm := makeSorted24 1 }).1 t.fresh := by
        refine ⟨by simp [Tree.allocLeaf, upd], g.fresh, ?_, 0, ?_, ?_⟩
        · intro s; simp [Tree.allocLeaf, upd]; rfl
        · simp only [Tree.allocLeaf, upd, if_true, Leaf.n]; rw [Tree.size_makeSorted 1 (by omega)]; omega
        · simp only [Tree.allocLeaf, upd, if_true]; exact Tree.get_makeSorted 1 (by omega) 0 (by omega)
      have o2 : hd.isSome → Open t0 (Tree.allocLeaf t true false { Tree.emptyLeaf with ikey := upd (fun _ => 0) 0 ek.ikey, perm := makeSorted24 1 }).1 tl ∧ tl < t.fresh := by
        intro hs
        have o := ho hs
        have hlt := g.tidy.lt o.kind
        have e1 : (Tree.allocLeaf t true false { Tree.emptyLeaf with ikey := upd (fun _ => 0) 0 ek.ikey, perm := makeSorted24 1 }).1.body tl = t.body tl := by
          simp only [Tree.allocLeaf, upd]; rw [if_neg (by omega)]
        refine ⟨⟨?_, o.new, ?_, ?_⟩, hlt⟩
        · simp only [Tree.allocLeaf, upd]; rw [if_neg (by omega)]; exact o.kind
        · rw [e1]; exact o.cell
        · rw [e1]; exact o.used
      have hp : (Tree.allocLeaf t true false { Tree.emptyLeaf with ikey := upd (fun _ => 0) 0 ek.ikey, perm := makeSorted24 1 }).2 = t.fresh := rfl
      generalize Tree.allocLeaf t true false { Tree.emptyLeaf with ikey := upd (fun _ => 0) 0 ek.ikey, perm := makeSorted24 1 } = y at h g1 r1' o1 o2 hp
      obtain ⟨t1, p⟩ := y
      simp only at h g1 r1' o1 o2 hp
      subst hp
      cases hd with
      | none =>
        obtain ⟨a1, a2, a3⟩ := ih g1 (fun _ => o1) h
        exact ⟨a1, a2, fun a => (a3 a).trans (r1' a)⟩
      | some h0 =>
        obtain ⟨o3, hlt⟩ := o2 rfl
        obtain ⟨g2, r2⟩ := o3.link (q := t.fresh) g1
        have o4 : Open t0 (linkTail t1 tl t.fresh) t.fresh := by
          have e : (upd t1.body tl { (t1.body tl) with klx := upd (t1.body tl).klx 0 Tree.layerKeylenx, cell := upd (t1.body tl).cell 0 (.layer t.fresh) }) t.fresh = t1.body t.fresh := by
            simp only [upd]; rw [if_neg (by omega)]
          refine ⟨o1.kind, o1.new, ?_, ?_⟩
          · intro s; simp only [e]; exact o1.cell s
          · simp only [e]; exact o1.used
        obtain ⟨a1, a2, a3⟩ := ih g2 (fun _ => o4) h
        exact ⟨a1, a2, fun a => (a3 a).trans ((r2 a).trans (r1' a))⟩
    · rw [if_neg cc] at h
      cases h
      exact ⟨g, ho, fun _ => rfl⟩

/-! ## Renaming -/

theorem leaf_map_congr {b : Leaf Nat} {f g : Nat → V} (h : ∀ s a, b.cell s = .val a → f a = g a) : b.map f = b.map g := by
  unfold Tree.Leaf.map
  congr 1
  funext s
  cases hc : b.cell s with
  | null => rfl
  | layer q => rfl
  | val a => simp only [Tree.Cell.map]; rw [h s a hc]

theorem tree_map_congr {t : Tree Nat} {f g : Nat → V} (h : ∀ l s a, (t.body l).cell s = .val a → f a = g a) : t.map f = t.map g := by
  unfold Tree.Tree.map
  congr 1
  funext l
  exact leaf_map_congr (h l)

/-- Pointers in a tree that has at most as many as there are owners are allocated. -/
theorem ptr_lt {h : Heap V} {t : Tree Nat} (w : WF h) (ht : Tidy t) (hr : ∀ a, refs t a ≤ h.rc a) {l s a : Nat}
    (hc : (t.body l).cell s = .val a) : a < h.fresh := by
  have := Tree.refs_pos ht hc
  have := hr a
  exact w.lt (by omega)

theorem map_ext {g : Bool} {h h' : Heap V} {t : Tree Nat} (w : WF h) (ht : Tidy t) (hr : ∀ a, refs t a ≤ h.rc a) (x : Ext g h h') :
    t.map h'.val = t.map h.val :=
  tree_map_congr fun l s a hc => x.val a (ptr_lt w ht hr hc)

theorem body_map_ext {g : Bool} {h h' : Heap V} {t : Tree Nat} (w : WF h) (ht : Tidy t) (hr : ∀ a, refs t a ≤ h.rc a) (x : Ext g h h')
    (l : Nat) : (t.body l).map h'.val = (t.body l).map h.val :=
  leaf_map_congr fun s a hc => x.val a (ptr_lt w ht hr hc)

/-- Owners accounted for by an optional output. -/
def Lawful.ownO {S : SlotOps V O} (L : Lawful S) : Option O → Nat → Nat
  | none, _ => 0
  | some o, a => L.own o a

theorem createLayer_sim {S : SlotOps V O} (L : Lawful S) {h : Heap V} {t : Tree Nat} {b : Leaf Nat} {slot : Nat} {nk : Key} {o : O}
    {ext : Nat → Nat} (w : WF h) (ht : Tidy t) {l : Nat} (hb : b = t.body l)
    (acc : ∀ a, h.rc a = refs t a + L.own o a + ext a) {tv : Tree V} {pv : Nat}
    (hv : Tree.createLayer (t.map h.val) (b.map h.val) slot nk (L.look h o) = .ok (tv, pv)) :
    ∃ h' t' q, createLayer S h t b slot nk o = .ok (h', t', pv) ∧ Ext L.grow h h' ∧ t'.map h'.val = tv ∧ Grown t t' ∧
      b.cell slot = .val q ∧ ∃ ep np, ∀ a, h'.rc a = refs t a + one a ep + one a np + ext a ∧ refs t' a = refs t a + one a ep + one a np := by
  unfold Tree.createLayer at hv
  unfold createLayer
  rw [Tree.suf_map] at hv
  cases hk : Key.fromSuffix? ((b.suf slot).getD []) with
  | none => rw [hk] at hv; cases hv
  | some ek =>
    rw [hk] at hv
    simp only at hv ⊢
    have eklx : (b.map h.val).klx slot = b.klx slot := rfl
    have ecell : (b.map h.val).cell slot = (b.cell slot).map h.val := rfl
    rw [eklx, ecell] at hv
    by_cases c : Tree.layerKeylenx ≤ b.klx slot
    · simp only [c, if_true] at hv; cases hv
    · simp only [c, if_false] at hv ⊢
      cases hc : b.cell slot with
      | null => rw [hc] at hv; cases hv
      | layer q => rw [hc] at hv; cases hv
      | val q =>
        rw [hc] at hv
        simp only [Tree.Cell.map, bind, Except.bind] at hv ⊢
        have hq : 0 < refs t q := Tree.refs_pos ht (l := l) (by rw [← hb]; exact hc)
        have hq' : 0 < h.rc q := by rw [acc]; omega
        obtain ⟨h1, eo, e1, x1, lk1, r1⟩ := L.fromRaw w hq'
        rw [e1]
        simp only
        rw [Tree.twigLoop_map] at hv
        cases ht1 : Tree.twigLoop ((if nk.hasSuffix = true then nk.shift else nk).data.length + 1) t none 0 ek
            (if nk.hasSuffix = true then nk.shift else nk)
            (ek.compare (if nk.hasSuffix = true then nk.shift else nk).ikey (if nk.hasSuffix = true then nk.shift else nk).currentLen) with
        | error e => rw [ht1] at hv; cases hv
        | ok x =>
          rw [ht1] at hv
          obtain ⟨g1, o1, r2⟩ := twigLoop_own (t0 := t) _ ⟨ht, Nat.le_refl _, fun _ _ => rfl, fun _ _ => rfl⟩ (by simp) ht1
          obtain ⟨t1, hd, tl, ek', nk', cmp⟩ := x
          simp only [Except.map, Tree.twigMap] at hv g1 o1 r2 ⊢
          have own1 : ∀ a, L.own eo a ≤ h1.rc a := fun a => by rw [r1]; omega
          obtain ⟨h2, ep, e2, x2, v2, r3⟩ := L.consume x1.wf own1
          rw [e2]
          simp only
          have own2 : ∀ a, L.own o a ≤ h2.rc a := fun a => by have := r3 a; have := r1 a; have := acc a; omega
          obtain ⟨h3, np, e3, x3, v3, r4⟩ := L.consume x2.wf own2
          rw [e3]
          simp only
          have ownh : ∀ a, L.own o a ≤ h.rc a := fun a => by rw [acc]; omega
          have vep : h3.val ep = h.val q := by
            have hlt : ep < h2.fresh := x2.wf.lt (by have := r3 ep; have := r1 ep; simp only [one, if_true] at *; omega)
            rw [x3.val ep hlt, v2, lk1]
          have vnp : h3.val np = L.look h o := by
            rw [v3, L.look_ext w (x1.trans x2) ownh]
          have ex : Ext L.grow h h3 := (x1.trans x2).trans x3
          have hf := finalLeaf_own ek' ep nk' np cmp
          have em : t1.map h.val = t1.map h3.val := (map_ext w g1.tidy (fun a => by rw [r2, acc]; omega) ex).symm
          rw [em, ← vep, ← vnp, Tree.finalLeaf_map, Tree.allocLeaf_map] at hv
          have g2 := g1.alloc (r := true) (lk := false) hf.1
          have r5 := fun a => Tree.refs_allocLeaf t1 true false (Tree.finalLeaf ek' ep nk' np cmp) a
          have o2 : hd.isSome → Open t (Tree.allocLeaf t1 true false (Tree.finalLeaf ek' ep nk' np cmp)).1 tl := by
            intro hs
            have o := o1 hs
            have hlt := g1.tidy.lt o.kind
            have e1 : (Tree.allocLeaf t1 true false (Tree.finalLeaf ek' ep nk' np cmp)).1.body tl = t1.body tl := by
              simp only [Tree.allocLeaf, upd]; rw [if_neg (by omega)]
            refine ⟨?_, o.new, ?_, ?_⟩
            · simp only [Tree.allocLeaf, upd]; rw [if_neg (by omega)]; exact o.kind
            · rw [e1]; exact o.cell
            · rw [e1]; exact o.used
          generalize Tree.allocLeaf t1 true false (Tree.finalLeaf ek' ep nk' np cmp) = y at hv g2 r5 o2
          obtain ⟨t2, p⟩ := y
          simp only at hv g2 r5 o2 ⊢
          have R : ∀ a, h3.rc a = refs t a + one a ep + one a np + ext a := fun a => by
            have := r4 a; have := r3 a; have := r1 a; have := acc a; omega
          have R2 : ∀ a, refs t2 a = refs t a + one a ep + one a np := fun a => by
            rw [r5, r2, hf.2]; omega
          cases hd with
          | none =>
            cases hv
            exact ⟨h3, t2, q, rfl, ex, rfl, g2, rfl, ep, np, fun a => ⟨R a, R2 a⟩⟩
          | some hd0 =>
            obtain ⟨g3, r6⟩ := (o2 rfl).link (q := p) g2
            cases hv
            refine ⟨h3, _, q, rfl, ex, ?_, g3, rfl, ep, np, fun a => ⟨R a, ?_⟩⟩
            · rw [Tree.map_setBody]
              simp only [Tree.Leaf.map, Tree.map_upd (Tree.Cell.map h3.val)]
              rfl
            · rw [r6, R2]

end Verif.Store
