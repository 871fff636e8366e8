import Verif.Proof.ChainTidy
set_option linter.unusedSimpArgs false
set_option linter.unusedVariables false
/-!
# The leaves of a chain hold the map that inserts and updates wrote
-/
namespace Verif.Chain
open Verif.Internode (upd upd_same upd_ne)
open Verif.Perm (size get makeSorted24 setSize params24)
open Verif.Tree (PermOK Leaf Cell permOK_initial size_initial size_makeSorted get_makeSorted)
open Verif.Cas (In Try in_newPerm not_lockable)
open Verif.Race (SlotIs SlotLeads Out)
open Verif.Tree (searchKlx)
variable {V : Type}

/-- In the chain, or about to be. -/
def Loc (s : St V) (z : Nat) : Prop := s.live z = true ∨ ∃ x, (s.hold x).new = some z

/-- Slot `t` of leaf `z` counts. -/
def At (s : St V) (z t : Nat) : Prop :=
  (Loc s z ∧ (s.hold z).froz = none ∧ In (s.leaf z).b.perm t) ∨
  (∃ raw sp y j, (s.hold z).froz = some (raw, sp, y) ∧ j < size 5 raw ∧ Keeps (s.hold z) sp j ∧ get 5 raw j = t) ∨
  (∃ x raw sp, (s.hold x).froz = some (raw, sp, z) ∧ t < (s.hold x).cnt - sp)

/-- Same key and same cell. -/
def Same (b : Leaf V) (t : Nat) (b' : Leaf V) (t' : Nat) : Prop :=
  b.ikey t = b'.ikey t' ∧ b.klx t = b'.klx t' ∧ b.ksuf t = b'.ksuf t' ∧ b.cell t = b'.cell t'

theorem Same.refl (b : Leaf V) (t : Nat) : Same b t b t := ⟨rfl, rfl, rfl, rfl⟩

theorem Same.slotIs {b b' : Leaf V} {t t' : Nat} (h : Same b t b' t') {k : Key} (hk : SlotIs b t k) : SlotIs b' t' k := by
  unfold SlotIs at hk ⊢
  rw [← h.1, ← h.2.1, ← h.2.2.1]; exact hk

theorem Same.shown {b b' : Leaf V} {t t' : Nat} (h : Same b t b' t') (k : Key) : shown b t k = shown b' t' k := by
  have h1 : SlotIs b t k ↔ SlotIs b' t' k := by unfold SlotIs; rw [h.1, h.2.1, h.2.2.1]
  have h2 : SlotLeads b t k ↔ SlotLeads b' t' k := by unfold SlotLeads; rw [h.1, h.2.1]
  unfold Chain.shown
  rw [h.2.2.2]
  simp only [h1, h2]

theorem shown_cases {b : Leaf V} {t : Nat} {k : Key} {r : Out V} (h : shown b t k = some r) :
    (∃ v, b.cell t = .val v ∧ SlotIs b t k ∧ r = .value v) ∨ (∃ q, b.cell t = .layer q ∧ SlotLeads b t k ∧ r = .descend q) := by
  unfold Chain.shown at h
  split at h
  · rename_i v e
    split at h
    · rename_i hs; cases h; exact .inl ⟨v, e, hs, rfl⟩
    · cases h
  · rename_i q e
    split at h
    · rename_i hs; cases h; exact .inr ⟨q, e, hs, rfl⟩
    · cases h
  · cases h

theorem shown_val {b : Leaf V} {t : Nat} {k : Key} {v : V} (h : b.cell t = .val v) (hs : SlotIs b t k) :
    shown b t k = some (.value v) := by
  unfold Chain.shown; rw [h]; exact if_pos hs

theorem shown_layer {b : Leaf V} {t : Nat} {k : Key} {q : Nat} (h : b.cell t = .layer q) (hs : SlotLeads b t k) :
    shown b t k = some (.descend q) := by
  unfold Chain.shown; rw [h]; exact if_pos hs

theorem shown_ikey {b : Leaf V} {t : Nat} {k : Key} {r : Out V} (h : shown b t k = some r) : b.ikey t = k.ikey := by
  rcases shown_cases h with ⟨_, _, h, _⟩ | ⟨_, _, h, _⟩ <;> exact h.1

theorem shown_cls {b : Leaf V} {t : Nat} {k : Key} {r : Out V} (h : shown b t k = some r) : cls (b.klx t) = cls (searchKlx k) := by
  rcases shown_cases h with ⟨_, _, h, _⟩ | ⟨_, _, h, _⟩
  · rw [klx_searchKlx h]
  · unfold searchKlx
    rw [if_pos h.2.2]
    have := h.2.1
    unfold cls
    rw [if_pos (by omega), if_pos (by decide)]

/-- What counts after the step counted before. -/
def Pull (s s' : St V) : Prop := ∀ z t, At s' z t → ∃ z' t', At s z' t' ∧ Same (s'.leaf z).b t (s.leaf z').b t'

theorem Pull.refl (s : St V) : Pull s s := fun z t h => ⟨z, t, h, Same.refl _ _⟩

theorem Pull.frame {s s' : St V} (hb : ∀ x, (s'.leaf x).b = (s.leaf x).b)
    (hf : ∀ x, (s'.hold x).froz = (s.hold x).froz ∧ (s'.hold x).cnt = (s.hold x).cnt) (hl : ∀ z, Loc s' z → Loc s z) :
    Pull s s' := by
  intro z t h
  refine ⟨z, t, ?_, by rw [hb]; exact Same.refl _ _⟩
  rcases h with ⟨h1, h2, h3⟩ | ⟨raw, sp, y, j, h1, h2, h3, h4⟩ | ⟨x, raw, sp, h1, h2⟩
  · exact .inl ⟨hl z h1, by rw [← (hf z).1]; exact h2, by rw [← hb]; exact h3⟩
  · refine .inr (.inl ⟨raw, sp, y, j, by rw [← (hf z).1]; exact h1, h2, ?_, h4⟩)
    unfold Keeps at h3 ⊢; rw [← (hf z).2]; exact h3
  · exact .inr (.inr ⟨x, raw, sp, by rw [← (hf x).1]; exact h1, by rw [← (hf x).2]; exact h2⟩)

/-- The leaf of a slot that counts, and its range. -/
theorem At.range {s : St V} (I : Inv s) {z t : Nat} (h : At s z t) :
    ∃ x, s.live x = true ∧ (z = x ∨ (s.hold x).new = some z) ∧ (s.leaf x).lo ≤ (s.leaf z).b.ikey t ∧
      ((s.leaf x).nx ≠ 0 → (s.leaf z).b.ikey t < (s.leaf (s.leaf x).nx).lo) := by
  rcases h with ⟨h1, h2, j, hj, h3⟩ | ⟨raw, sp, y, j, h1, h2, h3, h4⟩ | ⟨x, raw, sp, h1, h2⟩
  · rcases h1 with h1 | ⟨x, h1⟩
    · have a := I.low z h1
      have b := I.high z h1
      rw [cur_none h2] at a b
      exact ⟨z, h1, .inl rfl, by rw [← h3]; exact a j hj, fun h0 => by rw [← h3]; exact b h0 j hj⟩
    · have hnew := I.new x z h1
      refine ⟨x, hnew.1, .inr h1, ?_⟩
      rcases new_cases h1 with ⟨raw, sp, hz⟩ | hc
      · rw [(I.frozen x raw sp z hz).2.2.2.2.2.1, size_initial] at hj; omega
      · have := (I.cut x z hc).2 j hj
        rw [h3] at this
        exact ⟨by omega, this.2⟩
  · have hnew := I.new z y (froz_new h1)
    have a := I.low z hnew.1
    have b := I.high z hnew.1
    rw [cur_some h1] at a b
    exact ⟨z, hnew.1, .inl rfl, by rw [← h4]; exact a j h2, fun h0 => by rw [← h4]; exact b h0 j h2⟩
  · have hnew := I.new x z (froz_new h1)
    obtain ⟨hf1, hpo, hsp0, hsp1, hlo1, hyp0, hc1, hc2, hcopy⟩ := I.frozen x raw sp z h1
    have a := I.low x hnew.1
    have b := I.high x hnew.1
    rw [cur_some h1] at a b
    have e := hcopy (t + sp) (by omega) (by omega)
    rw [Nat.add_sub_cancel] at e
    rw [e]
    exact ⟨x, hnew.1, .inr (froz_new h1), a _ (by omega), fun h0 => b h0 _ (by omega)⟩

/-- Two leaves of the chain whose ranges meet are the same. -/
theorem Inv.same_range {s : St V} (I : Inv s) {x w n : Nat} (hx : s.live x = true) (hw : s.live w = true)
    (x1 : (s.leaf x).lo ≤ n) (x2 : (s.leaf x).nx ≠ 0 → n < (s.leaf (s.leaf x).nx).lo)
    (w1 : (s.leaf w).lo ≤ n) (w2 : (s.leaf w).nx ≠ 0 → n < (s.leaf (s.leaf w).nx).lo) : x = w := by
  rcases Nat.lt_trichotomy (s.leaf x).lo (s.leaf w).lo with h | h | h
  · have := I.chain x w hx hw h
    have := x2 this.1
    omega
  · exact I.inj x w hx hw h
  · have := I.chain w x hw hx h
    have := w2 this.1
    omega

/-- A slot that counts with a slice in the range of a leaf that nobody splits is a published slot of that leaf. -/
theorem At.home {s : St V} (I : Inv s) {z t x : Nat} (h : At s z t) (hx : s.live x = true) (hn : (s.hold x).new = none)
    (x1 : (s.leaf x).lo ≤ (s.leaf z).b.ikey t) (x2 : (s.leaf x).nx ≠ 0 → (s.leaf z).b.ikey t < (s.leaf (s.leaf x).nx).lo) :
    z = x ∧ In (s.leaf x).b.perm t := by
  obtain ⟨w, w0, w1, w2, w3⟩ := h.range I
  have e := I.same_range hx w0 x1 x2 w2 w3
  subst e
  rcases w1 with rfl | w1
  · refine ⟨rfl, ?_⟩
    rcases h with ⟨_, _, h3⟩ | ⟨raw, sp, y, j, h1, _⟩ | ⟨x', raw, sp, h1, _⟩
    · exact h3
    · rw [(new_none hn).1] at h1; cases h1
    · have := (I.new x' z (froz_new h1)).2.2.1
      rw [hx] at this; cases this
  · rw [hn] at w1; cases w1

/-- The body of one leaf that nobody splits changes. -/
theorem at_body {s s' : St V} (I : Inv s) {x : Nat} {l : LeafSt V} (hl : s.live x = true) (hn : (s.hold x).new = none)
    {z t : Nat} (h : At s' z t) (hleaf : s'.leaf = upd s.leaf x l)
    (hhold : ∀ z, (s'.hold z).froz = (s.hold z).froz ∧ (s'.hold z).cnt = (s.hold z).cnt ∧ (s'.hold z).new = (s.hold z).new)
    (hlive : s'.live = s.live) :
    (z ≠ x ∧ At s z t ∧ s'.leaf z = s.leaf z) ∨ (z = x ∧ In l.b.perm t ∧ s'.leaf z = l) := by
  have hL : ∀ z, z ≠ x → s'.leaf z = s.leaf z := fun z hz => by rw [hleaf, upd_ne _ _ _ hz]
  have hLx : s'.leaf x = l := by rw [hleaf, upd_same]
  have hloc : Loc s' z → Loc s z := by unfold Loc; rw [hlive]; simp only [(hhold _).2.2]; exact id
  by_cases e : z = x
  · subst e
    refine .inr ⟨rfl, ?_, hLx⟩
    rcases h with ⟨_, _, h3⟩ | ⟨raw, sp, y, j, h1, _⟩ | ⟨x', raw, sp, h1, _⟩
    · rw [hLx] at h3; exact h3
    · rw [(hhold _).1, (new_none hn).1] at h1; cases h1
    · rw [(hhold _).1] at h1
      have := (I.new x' z (froz_new h1)).2.2.1
      rw [hl] at this; cases this
  · refine .inl ⟨e, ?_, hL z e⟩
    rcases h with ⟨h1, h2, h3⟩ | ⟨raw, sp, y, j, h1, h2, h3, h4⟩ | ⟨x', raw, sp, h1, h2⟩
    · rw [(hhold _).1] at h2; rw [hL z e] at h3; exact .inl ⟨hloc h1, h2, h3⟩
    · rw [(hhold _).1] at h1; unfold Keeps at h3; rw [(hhold _).2.1] at h3
      exact .inr (.inl ⟨raw, sp, y, j, h1, h2, h3, h4⟩)
    · rw [(hhold _).1] at h1; rw [(hhold _).2.1] at h2; exact .inr (.inr ⟨x', raw, sp, h1, h2⟩)

/-- Bodies of a leaf being split and of its new leaf change. -/
theorem Pull.mid {s s' : St V} (I : Inv s) {x y sp : Nat} {raw : BitVec 128} {lx ly : LeafSt V} {h' : HPc}
    (hz : (s.hold x).froz = some (raw, sp, y)) (hz' : h'.froz = some (raw, sp, y))
    (hleaf : s'.leaf = upd (upd s.leaf y ly) x lx) (hhold : s'.hold = upd s.hold x h') (hlive : s'.live = s.live)
    (yp : ly.b.perm = (s.leaf y).b.perm)
    (h1 : ∀ j, j < size 5 raw → Keeps h' sp j → Keeps (s.hold x) sp j ∧ Same lx.b (get 5 raw j) (s.leaf x).b (get 5 raw j))
    (h2 : ∀ u, u < h'.cnt - sp → (u < (s.hold x).cnt - sp ∧ Same ly.b u (s.leaf y).b u) ∨
      ∃ j, j < size 5 raw ∧ Keeps (s.hold x) sp j ∧ Same ly.b u (s.leaf x).b (get 5 raw j)) : Pull s s' := by
  have hnew := I.new x y (froz_new hz)
  have hyp0 := (I.frozen x raw sp y hz).2.2.2.2.2.1
  have hyx : y ≠ x := by
    rintro rfl
    have := hnew.1; rw [hnew.2.2.1] at this; cases this
  have hL : ∀ z, z ≠ x → z ≠ y → s'.leaf z = s.leaf z := fun z hz hzy => by
    rw [hleaf, upd_ne _ _ _ hz, upd_ne _ _ _ hzy]
  have hLx : s'.leaf x = lx := by rw [hleaf, upd_same]
  have hLy : s'.leaf y = ly := by rw [hleaf, upd_ne _ _ _ hyx, upd_same]
  have hH : ∀ z, z ≠ x → s'.hold z = s.hold z := fun z hz => by rw [hhold, upd_ne _ _ _ hz]
  have hHx : s'.hold x = h' := by rw [hhold, upd_same]
  have hyh : s.hold y = .newborn := hnew.2.2.2.2.1
  have hloc : ∀ z, Loc s' z → Loc s z := by
    rintro z (h | ⟨w, h⟩)
    · left; rw [hlive] at h; exact h
    · right
      by_cases e : w = x
      · subst e; rw [hHx, froz_new hz'] at h; cases h; exact ⟨w, froz_new hz⟩
      · rw [hH w e] at h; exact ⟨w, h⟩
  intro z t h
  by_cases ex : z = x
  · subst ex
    rw [hLx]
    rcases h with ⟨_, h, _⟩ | ⟨raw1, sp1, y1, j, e1, e2, e3, e4⟩ | ⟨x', raw1, sp1, e1, e2⟩
    · rw [hHx, hz'] at h; cases h
    · rw [hHx] at e1 e3; rw [hz'] at e1; cases e1
      obtain ⟨k1, k2⟩ := h1 j e2 e3
      rw [e4] at k2
      exact ⟨z, t, .inr (.inl ⟨raw, sp, y, j, hz, e2, k1, e4⟩), k2⟩
    · exfalso
      have : (s.hold x').new = some z := by
        by_cases e : x' = z
        · subst e; rw [hHx, hz'] at e1; cases e1; exact absurd rfl hyx
        · rw [hH x' e] at e1; exact froz_new e1
      have := (I.new x' z this).2.2.1
      rw [hnew.1] at this; cases this
  · by_cases ey : z = y
    · subst ey
      rw [hLy]
      rcases h with ⟨_, _, j, hj, _⟩ | ⟨raw1, sp1, y1, j, e1, e2, e3, e4⟩ | ⟨x', raw1, sp1, e1, e2⟩
      · rw [hLy, yp, hyp0, size_initial] at hj; omega
      · rw [hH z ex, hyh] at e1; cases e1
      · have : x' = x := by
          by_cases e : x' = x
          · exact e
          · rw [hH x' e] at e1
            exact I.uniq x' x z (froz_new e1) (froz_new hz)
        subst this
        rw [hHx] at e1 e2; rw [hz'] at e1; cases e1
        rcases h2 t e2 with ⟨k1, k2⟩ | ⟨j, k1, k2, k3⟩
        · exact ⟨z, t, .inr (.inr ⟨x', raw, sp, hz, k1⟩), k2⟩
        · exact ⟨x', get 5 raw j, .inr (.inl ⟨raw, sp, z, j, hz, k1, k2, rfl⟩), k3⟩
    · rw [hL z ex ey]
      refine ⟨z, t, ?_, Same.refl _ _⟩
      rcases h with ⟨e1, e2, e3⟩ | ⟨raw1, sp1, y1, j, e1, e2, e3, e4⟩ | ⟨x', raw1, sp1, e1, e2⟩
      · rw [hH z ex] at e2; rw [hL z ex ey] at e3; exact .inl ⟨hloc z e1, e2, e3⟩
      · rw [hH z ex] at e1 e3; exact .inr (.inl ⟨raw1, sp1, y1, j, e1, e2, e3, e4⟩)
      · have : x' ≠ x := by
          rintro rfl
          rw [hHx, hz'] at e1; cases e1; exact ey rfl
        rw [hH x' this] at e1 e2; exact .inr (.inr ⟨x', raw1, sp1, e1, e2⟩)

theorem Pull.freeze {s s' : St V} (I : Inv s) {x y sp : Nat} {lv : NV.W} {lx ly : LeafSt V}
    (hx : s.hold x = .marked lv) (hu : s.used y = false)
    (hleaf : s'.leaf = upd (upd s.leaf y ly) x lx)
    (hhold : s'.hold = upd (upd s.hold y .newborn) x (.take lv (s.leaf x).b.perm sp y sp)) (hlive : s'.live = s.live)
    (xs : ∀ t, Same lx.b t (s.leaf x).b t)
    (yp : size 5 ly.b.perm = 0) : Pull s s' := by
  have hxl : s.live x = true := I.own x (by rw [hx]; simp) (by rw [hx]; simp)
  have hyx : y ≠ x := by
    rintro rfl
    have := I.used y hxl; rw [hu] at this; cases this
  have hL : ∀ z, z ≠ x → z ≠ y → s'.leaf z = s.leaf z := fun z hz hzy => by
    rw [hleaf, upd_ne _ _ _ hz, upd_ne _ _ _ hzy]
  have hLx : s'.leaf x = lx := by rw [hleaf, upd_same]
  have hLy : s'.leaf y = ly := by rw [hleaf, upd_ne _ _ _ hyx, upd_same]
  have hH : ∀ z, z ≠ x → z ≠ y → s'.hold z = s.hold z := fun z hz hzy => by
    rw [hhold, upd_ne _ _ _ hz, upd_ne _ _ _ hzy]
  have hHx : s'.hold x = .take lv (s.leaf x).b.perm sp y sp := by rw [hhold, upd_same]
  have hHy : s'.hold y = .newborn := by rw [hhold, upd_ne _ _ _ hyx, upd_same]
  intro z t h
  have third : ∀ x' raw1 sp1, (s'.hold x').froz = some (raw1, sp1, z) → t < (s'.hold x').cnt - sp1 →
      x' ≠ x ∧ x' ≠ y := by
    intro x' raw1 sp1 e1 e2
    constructor
    · rintro rfl
      rw [hHx] at e1 e2; cases e1
      have e2 : t < sp - sp := e2
      omega
    · rintro rfl; rw [hHy] at e1; cases e1
  by_cases ex : z = x
  · subst ex
    rw [hLx]
    rcases h with ⟨_, h, _⟩ | ⟨raw1, sp1, y1, j, e1, e2, e3, e4⟩ | ⟨x', raw1, sp1, e1, e2⟩
    · rw [hHx] at h; cases h
    · rw [hHx] at e1; cases e1
      exact ⟨z, t, .inl ⟨.inl hxl, by rw [hx]; rfl, j, e2, e4⟩, xs t⟩
    · exfalso
      have o := third _ _ _ e1 e2
      rw [hH x' o.1 o.2] at e1
      have := (I.new x' z (froz_new e1)).2.2.1
      rw [hxl] at this; cases this
  · by_cases ey : z = y
    · subst ey
      exfalso
      rcases h with ⟨_, _, j, hj, _⟩ | ⟨raw1, sp1, y1, j, e1, e2, e3, e4⟩ | ⟨x', raw1, sp1, e1, e2⟩
      · rw [hLy] at hj; omega
      · rw [hHy] at e1; cases e1
      · have o := third _ _ _ e1 e2
        rw [hH x' o.1 o.2] at e1
        have := (I.new x' z (froz_new e1)).2.2.2.1
        rw [hu] at this; cases this
    · rw [hL z ex ey]
      refine ⟨z, t, ?_, Same.refl _ _⟩
      rcases h with ⟨e1, e2, e3⟩ | ⟨raw1, sp1, y1, j, e1, e2, e3, e4⟩ | ⟨x', raw1, sp1, e1, e2⟩
      · rw [hH z ex ey] at e2; rw [hL z ex ey] at e3
        refine .inl ⟨?_, e2, e3⟩
        rcases e1 with e1 | ⟨w, e1⟩
        · left; rw [hlive] at e1; exact e1
        · right
          have w1 : w ≠ x := by rintro rfl; rw [hHx] at e1; cases e1; exact ey rfl
          have w2 : w ≠ y := by rintro rfl; rw [hHy] at e1; cases e1
          rw [hH w w1 w2] at e1; exact ⟨w, e1⟩
      · rw [hH z ex ey] at e1 e3; exact .inr (.inl ⟨raw1, sp1, y1, j, e1, e2, e3, e4⟩)
      · have o := third _ _ _ e1 e2
        rw [hH x' o.1 o.2] at e1 e2; exact .inr (.inr ⟨x', raw1, sp1, e1, e2⟩)

theorem Pull.unfreeze {s s' : St V} (I : Inv s) {x y sp : Nat} {raw : BitVec 128} {lv : NV.W} {lx ly : LeafSt V}
    (hx : s.hold x = .unfreeze lv raw sp y)
    (hleaf : s'.leaf = upd (upd s.leaf y ly) x lx) (hhold : s'.hold = upd s.hold x (.mark lv y)) (hlive : s'.live = s.live)
    (xp : lx.b.perm = setSize 5 raw sp) (xs : ∀ t, Same lx.b t (s.leaf x).b t)
    (yp : ly.b.perm = makeSorted24 (size 5 raw - sp)) (ys : ∀ t, Same ly.b t (s.leaf y).b t) : Pull s s' := by
  have hz : (s.hold x).froz = some (raw, sp, y) := by rw [hx]; rfl
  have hnew := I.new x y (froz_new hz)
  obtain ⟨hf1, hpo, hsp0, hsp1, hlo1, hyp0, hc1, hc2, hcopy⟩ := I.frozen x raw sp y hz
  have hcnt : (s.hold x).cnt = size 5 raw := by rw [hx]; rfl
  have hsl := hpo.size_le
  have hyx : y ≠ x := by
    rintro rfl
    have := hnew.1; rw [hnew.2.2.1] at this; cases this
  have hL : ∀ z, z ≠ x → z ≠ y → s'.leaf z = s.leaf z := fun z hz hzy => by
    rw [hleaf, upd_ne _ _ _ hz, upd_ne _ _ _ hzy]
  have hLx : s'.leaf x = lx := by rw [hleaf, upd_same]
  have hLy : s'.leaf y = ly := by rw [hleaf, upd_ne _ _ _ hyx, upd_same]
  have hH : ∀ z, z ≠ x → s'.hold z = s.hold z := fun z hz => by rw [hhold, upd_ne _ _ _ hz]
  have hHx : s'.hold x = .mark lv y := by rw [hhold, upd_same]
  have hyh : s.hold y = .newborn := hnew.2.2.2.2.1
  have hxsz : size 5 lx.b.perm = sp := by rw [xp]; exact Verif.Perm.size_setSize params24 _ (by omega)
  have hxg : ∀ i, i < 24 → get 5 lx.b.perm i = get 5 raw i := fun i hi => by
    rw [xp]; exact Verif.Perm.get_setSize params24 _ (by omega) hi
  have hysz : size 5 ly.b.perm = size 5 raw - sp := by rw [yp]; exact size_makeSorted _ (by omega)
  have hyg : ∀ i, i < size 5 raw - sp → get 5 ly.b.perm i = i := fun i hi => by
    rw [yp]; exact get_makeSorted _ (by omega) i hi
  intro z t h
  have third : ∀ x' raw1 sp1, (s'.hold x').froz = some (raw1, sp1, z) → x' ≠ x := by
    rintro x' raw1 sp1 e1 rfl; rw [hHx] at e1; cases e1
  by_cases ex : z = x
  · subst ex
    rw [hLx]
    rcases h with ⟨_, _, j, hj, e⟩ | ⟨raw1, sp1, y1, j, e1, e2, e3, e4⟩ | ⟨x', raw1, sp1, e1, e2⟩
    · rw [hLx] at hj e
      rw [hxsz] at hj
      rw [hxg j (by omega)] at e
      exact ⟨z, t, .inr (.inl ⟨raw, sp, y, j, hz, by omega, .inl hj, e⟩), xs t⟩
    · rw [hHx] at e1; cases e1
    · exfalso
      rw [hH x' (third _ _ _ e1)] at e1
      have := (I.new x' z (froz_new e1)).2.2.1
      rw [hnew.1] at this; cases this
  · by_cases ey : z = y
    · subst ey
      rw [hLy]
      rcases h with ⟨_, _, j, hj, e⟩ | ⟨raw1, sp1, y1, j, e1, e2, e3, e4⟩ | ⟨x', raw1, sp1, e1, e2⟩
      · rw [hLy] at hj e
        rw [hyg j (by omega)] at e
        subst e
        exact ⟨z, j, .inr (.inr ⟨x, raw, sp, hz, by omega⟩), ys j⟩
      · rw [hH z ex, hyh] at e1; cases e1
      · exfalso
        have o := third _ _ _ e1
        rw [hH x' o] at e1
        exact o (I.uniq x' x z (froz_new e1) (froz_new hz))
    · rw [hL z ex ey]
      refine ⟨z, t, ?_, Same.refl _ _⟩
      rcases h with ⟨e1, e2, e3⟩ | ⟨raw1, sp1, y1, j, e1, e2, e3, e4⟩ | ⟨x', raw1, sp1, e1, e2⟩
      · rw [hH z ex] at e2; rw [hL z ex ey] at e3
        refine .inl ⟨?_, e2, e3⟩
        rcases e1 with e1 | ⟨w, e1⟩
        · left; rw [hlive] at e1; exact e1
        · right
          have w1 : w ≠ x := by rintro rfl; rw [hHx] at e1; cases e1; exact ey rfl
          rw [hH w w1] at e1; exact ⟨w, e1⟩
      · rw [hH z ex] at e1 e3; exact .inr (.inl ⟨raw1, sp1, y1, j, e1, e2, e3, e4⟩)
      · have o := third _ _ _ e1
        rw [hH x' o] at e1 e2; exact .inr (.inr ⟨x', raw1, sp1, e1, e2⟩)

theorem Pull.hstep {s : St V} (I : Inv s) (x : Nat) (hnt : (s.hold x).trans = none) : Pull s (hstep s x) := by
  have keep : ∀ (s' : St V) (h' : HPc), (∀ z, (s'.leaf z).b = (s.leaf z).b) → s'.hold = upd s.hold x h' →
      s'.live = s.live → h'.froz = (s.hold x).froz → h'.cnt = (s.hold x).cnt → h'.new = (s.hold x).new → Pull s s' := by
    intro s' h' hb hh hl h1 h2 h3
    refine Pull.frame hb ?_ ?_
    · intro z
      rw [hh, upd_if]
      split
      · rename_i e; subst e; exact ⟨h1, h2⟩
      · exact ⟨rfl, rfl⟩
    · rintro z (e | ⟨w, e⟩)
      · left; rw [hl] at e; exact e
      · right; refine ⟨w, ?_⟩
        rw [hh, upd_if] at e
        split at e
        · rename_i ew; subst ew; rw [h3] at e; exact e
        · exact e
  have hw : ∀ (x : Nat) (l : LeafSt V), l.b = (s.leaf x).b → ∀ z, (upd s.leaf x l z).b = (s.leaf z).b := by
    intro x l hl z
    rw [upd_if]; split
    · rename_i ez; rw [ez]; exact hl
    · rfl
  unfold Chain.hstep
  split
  case h_1 lv raw sp y j e =>
    have hz : (s.hold x).froz = some (raw, sp, y) := by rw [e]; rfl
    have hcnt : (s.hold x).cnt = j := by rw [e]; rfl
    obtain ⟨hf1, hpo, hsp0, hsp1, hlo1, hyp0, hc1, hc2, hcopy⟩ := I.frozen x raw sp y hz
    rw [hcnt] at hc1 hc2
    split
    · rename_i hj
      refine Pull.mid I (h' := .clear lv raw sp y j) hz rfl rfl rfl rfl rfl ?_ ?_
      · intro i hi hk
        have hk : i < sp ∨ j + 1 ≤ i := hk
        refine ⟨by unfold Keeps; rw [hcnt]; omega, rfl, rfl, rfl, ?_⟩
        exact upd_ne _ _ _ (get_ne hpo hi hj (by omega))
      · intro u hu
        have hu : u < j + 1 - sp := hu
        by_cases eu : u = j - sp
        · subst eu
          refine .inr ⟨j, hj, .inr (by rw [hcnt]), ?_⟩
          exact ⟨upd_same _ _ _, upd_same _ _ _, upd_same _ _ _, upd_same _ _ _⟩
        · refine .inl ⟨by rw [hcnt]; omega, ?_⟩
          exact ⟨upd_ne _ _ _ eu, upd_ne _ _ _ eu, upd_ne _ _ _ eu, upd_ne _ _ _ eu⟩
    · refine keep _ (.unfreeze lv raw sp y) (fun _ => rfl) rfl rfl hz.symm ?_ (by rw [e]; rfl)
      rw [hcnt]; show size 5 raw = j; omega
  case h_2 lv raw sp y j e =>
    have hz : (s.hold x).froz = some (raw, sp, y) := by rw [e]; rfl
    have hcnt : (s.hold x).cnt = j + 1 := by rw [e]; rfl
    have hjl := I.jle x lv raw sp y j e
    obtain ⟨hf1, hpo, hsp0, hsp1, hlo1, hyp0, hc1, hc2, hcopy⟩ := I.frozen x raw sp y hz
    rw [hcnt] at hc1 hc2
    split
    · refine Pull.mid I (y := y) (ly := s.leaf y) (h' := .take lv raw sp y (j + 1)) hz rfl
        (lx := { s.leaf x with b := { (s.leaf x).b with
          klx := upd (s.leaf x).b.klx (get 5 raw j) 0, ksuf := upd (s.leaf x).b.ksuf (get 5 raw j) none } })
        (by rw [upd_id]) rfl rfl rfl ?_ ?_
      · intro i hi hk
        have hk : i < sp ∨ j + 1 ≤ i := hk
        have ne := get_ne hpo hi (show j < size 5 raw by omega) (by omega)
        exact ⟨by unfold Keeps; rw [hcnt]; omega, rfl, upd_ne _ _ _ ne, upd_ne _ _ _ ne, rfl⟩
      · intro u hu
        have hu : u < j + 1 - sp := hu
        exact .inl ⟨by rw [hcnt]; exact hu, Same.refl _ _⟩
    · exact keep _ (.take lv raw sp y (j + 1)) (fun _ => rfl) rfl rfl hz.symm hcnt.symm (by rw [e]; rfl)
  case h_3 lv raw sp y e =>
    exact Pull.unfreeze I e rfl rfl rfl rfl (fun t => ⟨rfl, rfl, rfl, rfl⟩) rfl (fun t => ⟨rfl, rfl, rfl, rfl⟩)
  case h_4 lv y e =>
    exact keep _ (.setNext lv y) (hw _ _ rfl) rfl rfl (by rw [e]; rfl) (by rw [e]; rfl) (by rw [e]; rfl)
  case h_5 lv y e =>
    exact keep _ (.publish lv y) (hw _ _ rfl) rfl rfl (by rw [e]; rfl) (by rw [e]; rfl) (by rw [e]; rfl)
  case h_6 lv y e =>
    refine Pull.frame (hw _ _ rfl) ?_ ?_
    · intro z
      show (upd s.hold x _ z).froz = _ ∧ (upd s.hold x _ z).cnt = _
      rw [upd_if]
      split
      · rename_i ez; subst ez; rw [e]; exact ⟨rfl, rfl⟩
      · exact ⟨rfl, rfl⟩
    · rintro z (h | ⟨w, h⟩)
      · have h : upd s.live y true z = true := h
        rw [upd_if] at h
        split at h
        · rename_i ez; subst ez; exact .inr ⟨x, by rw [e]; rfl⟩
        · exact .inl h
      · right
        have h : (upd s.hold x (.unlock lv) w).new = some z := h
        rw [upd_if] at h
        split at h
        · cases h
        · exact ⟨w, h⟩
  case h_7 lv e =>
    exact keep _ .free (hw _ _ rfl) rfl rfl (by rw [e]; rfl) (by rw [e]; rfl) (by rw [e]; rfl)
  case h_8 lv t q st e => rw [e] at hnt; cases hnt
  case h_9 => exact Pull.refl s

/-- What counts holds what was written. -/
def MapOk (s : St V) (k : Key) (m : Out V) : Prop := ∀ z t r, At s z t → shown (s.leaf z).b t k = some r → m = r

theorem MapOk.pull {s s' : St V} {k : Key} {m : Out V} (h : MapOk s k m) (hp : Pull s s') : MapOk s' k m := by
  intro z t v ha hs
  obtain ⟨z', t', h1, h2⟩ := hp z t ha
  exact h z' t' v h1 (by rw [← h2.shown k]; exact hs)

/-- The slot of a key in a leaf is unique. -/
theorem In.unique {b : Leaf V} (hp : ∀ i j, i < j → j < size 5 b.perm → ¬ Twin b (get 5 b.perm i) b (get 5 b.perm j))
    {t t' : Nat} (h : In b.perm t) (h' : In b.perm t') (e1 : b.ikey t = b.ikey t') (e2 : cls (b.klx t) = cls (b.klx t')) : t = t' := by
  obtain ⟨i, hi, rfl⟩ := h
  obtain ⟨j, hj, rfl⟩ := h'
  rcases Nat.lt_trichotomy i j with hlt | rfl | hlt
  · exact absurd ⟨e1, e2⟩ (hp i j hlt hj)
  · rfl
  · exact absurd ⟨e1.symm, e2.symm⟩ (hp j i hlt hi)

/-- A store of a conversion. -/
theorem MapOk.conv {s s' : St V} (I : Inv s) (T : Tidy s) {x t q st : Nat} {lv : NV.W} {k : Key} {m : Out V} (h : MapOk s k m)
    (hx : (s.hold x = .locked lv ∧ st = 0 ∧ In (s.leaf x).b.perm t ∧ (s.leaf x).b.klx t = 64) ∨
      (s.hold x = .conv lv t q st ∧ ConvAt (s.leaf x).b t st))
    (hleaf : s'.leaf = upd s.leaf x { s.leaf x with b := convStore (s.leaf x).b t q st })
    (hhold : s'.hold = upd s.hold x (convNext lv t q st)) (hlive : s'.live = s.live) :
    MapOk s' k (if st = 4 ∧ (s.leaf x).b.ikey t = k.ikey ∧ k.hasSuffix = true then .descend q else m) := by
  have hl : s.live x = true := by
    rcases hx with ⟨e, _⟩ | ⟨e, _⟩ <;> exact I.own x (by rw [e]; simp) (by rw [e]; simp)
  have hfz : (s.hold x).froz = none := by rcases hx with ⟨e, _⟩ | ⟨e, _⟩ <;> rw [e] <;> rfl
  have hn : (s.hold x).new = none := by rcases hx with ⟨e, _⟩ | ⟨e, _⟩ <;> rw [e] <;> rfl
  have hcn : (s.hold x).cnt = 0 := by rcases hx with ⟨e, _⟩ | ⟨e, _⟩ <;> rw [e] <;> rfl
  have hin : In (s.leaf x).b.perm t := by
    rcases hx with ⟨_, _, h, _⟩ | ⟨_, h⟩
    · exact h
    · exact h.pub
  have hs := I.still hn hl
  have hH : ∀ z, (s'.hold z).froz = (s.hold z).froz ∧ (s'.hold z).cnt = (s.hold z).cnt ∧ (s'.hold z).new = (s.hold z).new := by
    intro z
    rw [hhold, upd_if]
    split
    · rename_i e; subst e
      rw [hfz, hn, hcn]
      unfold convNext; split <;> exact ⟨rfl, rfl, rfl⟩
    · exact ⟨rfl, rfl, rfl⟩
  have hcls : cls ((E s x).klx t) = 64 := by
    rcases hx with ⟨e, _, _, hk⟩ | ⟨e, _⟩
    · rw [E_none (by rw [e]; rfl), hk]; rfl
    · unfold E; rw [e]; show cls (upd _ _ _ _) = 64; rw [upd_same]; rfl
  have hother : ∀ t', t' ≠ t → (s.hold x).trans ≠ some t' := by
    intro t' ht
    rcases hx with ⟨e, _⟩ | ⟨e, _⟩ <;> rw [e]
    · simp [HPc.trans]
    · intro e; cases e; exact ht rfl
  intro z t' r ha hr
  rcases at_body I (x := x) hl hn ha hleaf hH hlive with ⟨h0, h1, h2⟩ | ⟨rfl, h1, h2⟩
  · rw [h2] at hr
    split
    · rename_i hk
      exfalso
      obtain ⟨i, hi, ei⟩ := hin
      have e1 : (s.leaf z).b.ikey t' = (s.leaf x).b.ikey (get 5 (s.leaf x).b.perm i) := by
        rw [ei]; exact (shown_ikey hr).trans hk.2.1.symm
      exact h0 (h1.home I hl hn (by rw [e1]; exact hs.2.2.1 i hi) (by rw [e1]; exact fun h0 => hs.2.2.2 h0 i hi)).1
    · exact h z t' r h1 hr
  · rw [h2] at hr
    have hr : shown (convStore (s.leaf z).b t q st) t' k = some r := hr
    have h1 : In (convStore (s.leaf z).b t q st).perm t' := h1
    rw [convStore_perm] at h1
    by_cases et : t' = t
    · subst et
      have key : st = 4 ∧ shown { (s.leaf z).b with cell := upd (s.leaf z).b.cell t' (.layer q) } t' k = some r ∧ (s.leaf z).b.klx t' = 128 := by
        rcases hx with ⟨_, rfl, _⟩ | ⟨_, hc⟩
        · exfalso
          rcases shown_cases hr with ⟨v, e, _⟩ | ⟨q', e, _⟩
          · have e : upd (s.leaf z).b.cell t' .null t' = .val v := e
            rw [upd_same] at e; cases e
          · have e : upd (s.leaf z).b.cell t' .null t' = .layer q' := e
            rw [upd_same] at e; cases e
        · have hnull := hc.cell
          have ex : (convStore (s.leaf z).b t' q st).cell t' = .null → False := by
            intro e0
            rcases shown_cases hr with ⟨v, e, _⟩ | ⟨q', e, _⟩ <;> rw [e0] at e <;> cases e
          have h1 := hc.first
          have h2 := hc.last
          rcases convStore_cases (s.leaf z).b t' q st with ⟨e, _⟩ | ⟨_, e⟩ | ⟨_, e⟩ | ⟨_, e⟩ | ⟨e0, e⟩ | ⟨e, _⟩
          · omega
          · exact absurd (by rw [e]; exact hnull) ex
          · exact absurd (by rw [e]; exact hnull) ex
          · exact absurd (by rw [e]; exact hnull) ex
          · rw [e] at hr; subst e0; exact ⟨rfl, hr, hc.klx⟩
          · omega
      obtain ⟨rfl, k2, k3⟩ := key
      have e : upd (s.leaf z).b.cell t' (.layer q) t' = .layer q := upd_same _ _ _
      rcases shown_cases k2 with ⟨v, e', _⟩ | ⟨q', e', hsl, hr⟩
      · have e' : upd (s.leaf z).b.cell t' (.layer q) t' = .val v := e'
        rw [e] at e'; cases e'
      · have e' : upd (s.leaf z).b.cell t' (.layer q) t' = .layer q' := e'
        rw [e] at e'; cases e'
        rw [if_pos ⟨rfl, hsl.1, hsl.2.2⟩]; exact hr.symm
    · have n := convStore_ne (s.leaf z).b q st et
      have hsm : Same (convStore (s.leaf z).b t q st) t' (s.leaf z).b t' := ⟨by rw [convStore_ikey], n.1, n.2.1, n.2.2⟩
      rw [hsm.shown k] at hr
      split
      · rename_i hk
        exfalso
        have n2 := E_ne (hother t' et)
        refine et (In.unique (b := E s z) (T.pairs z hfz) (by rw [E_perm]; exact h1) (by rw [E_perm]; exact hin) ?_ ?_)
        · rw [E_ikey]; exact (shown_ikey hr).trans hk.2.1.symm
        · rw [hcls, n2.1, shown_cls hr]
          unfold searchKlx; rw [if_pos hk.2.2]; rfl
      · exact h z t' r (.inl ⟨.inl hl, hfz, h1⟩) hr

theorem MapOk.act {s : St V} (I : Inv s) (hcv : ConvOk s) (T : Tidy s) (f : Bool) (a : Act V) {k : Key} {m : Out V} (h : MapOk s k m) :
    MapOk (act f s a) k (match written s k a with | some r => r | none => m) := by
  have keep : ∀ (s' : St V) (x : Nat) (h' : HPc), (∀ z, (s'.leaf z).b = (s.leaf z).b) → s'.hold = upd s.hold x h' →
      s'.live = s.live → h'.froz = (s.hold x).froz → h'.cnt = (s.hold x).cnt → h'.new = (s.hold x).new → MapOk s' k m := by
    intro s' x h' hb hh hl h1 h2 h3
    refine h.pull (Pull.frame hb ?_ ?_)
    · intro z
      rw [hh, upd_if]
      split
      · rename_i e; subst e; exact ⟨h1, h2⟩
      · exact ⟨rfl, rfl⟩
    · rintro z (e | ⟨w, e⟩)
      · left; rw [hl] at e; exact e
      · right; refine ⟨w, ?_⟩
        rw [hh, upd_if] at e
        split at e
        · rename_i ew; subst ew; rw [h3] at e; exact e
        · exact e
  have hw : ∀ (x : Nat) (l : LeafSt V), l.b = (s.leaf x).b → ∀ z, (upd s.leaf x l z).b = (s.leaf z).b := by
    intro x l hl z
    rw [upd_if]; split
    · rename_i ez; rw [ez]; exact hl
    · rfl
  cases a with
  | lock x =>
    show MapOk _ k m
    unfold Chain.act; simp only; split
    · rename_i hc
      have hd : NV.isDirty (s.leaf x).word = false := by
        cases hd : NV.isDirty (s.leaf x).word with
        | false => rfl
        | true => rw [not_lockable hd] at hc; cases hc.2
      have hf := I.free_of_clean hd
      exact keep _ x (.locked _) (hw x _ rfl) rfl rfl (by rw [hf]; rfl) (by rw [hf]; rfl) (by rw [hf]; rfl)
    · exact h
  | write x t ik kl c sf =>
    show MapOk _ k m
    unfold Chain.act; simp only; split
    · rename_i lv e
      split
      · rename_i hf
        rw [freeSlot_iff] at hf
        have hl := I.own x (by rw [e]; simp) (by rw [e]; simp)
        have hn : (s.hold x).new = none := by rw [e]; rfl
        refine h.pull ?_
        intro z t' ha
        rcases at_body I (x := x) hl hn ha rfl (fun _ => ⟨rfl, rfl, rfl⟩) rfl with ⟨_, h1, h2⟩ | ⟨rfl, h1, h2⟩
        · rw [h2]; exact ⟨z, t', h1, Same.refl _ _⟩
        · rw [h2]
          have et : t' ≠ t := by rintro rfl; exact hf h1
          refine ⟨z, t', .inl ⟨.inl hl, by rw [e]; rfl, h1⟩, ?_⟩
          exact ⟨upd_ne _ _ _ et, upd_ne _ _ _ et, upd_ne _ _ _ et, upd_ne _ _ _ et⟩
      · exact h
    · exact h
  | publish x pos off =>
    unfold Chain.act written; simp only
    cases e : s.hold x with
    | locked lv =>
      simp only
      by_cases hc : pos ≤ size 5 (s.leaf x).b.perm ∧ off < 24 - size 5 (s.leaf x).b.perm ∧
          fits (s.leaf x) (s.leaf (s.leaf x).nx).lo pos (⟨⟨0, 0⟩, 0#32, (s.leaf x).b.perm, pos, off⟩ : Try).slot = true
      · rw [if_pos hc]
        have hc' := hc
        obtain ⟨hpos, hoff, hfit⟩ := hc'
        have hl := I.own x (by rw [e]; simp) (by rw [e]; simp)
        have hfz : (s.hold x).froz = none := by rw [e]; rfl
        have hn : (s.hold x).new = none := by rw [e]; rfl
        have hs := I.still hn hl
        have hy : (⟨⟨0, 0⟩, 0#32, (s.leaf x).b.perm, pos, off⟩ : Try).Ok := ⟨hs.1, hpos, hoff⟩
        have hin := in_newPerm hy
        unfold fits at hfit
        have hfit := of_decide_eq_true hfit
        simp only [hc, true_and]
        clear hc
        revert hin hfit
        generalize hyy : (⟨⟨0, 0⟩, 0#32, (s.leaf x).b.perm, pos, off⟩ : Try) = y
        have hyp : y.p = (s.leaf x).b.perm := by rw [← hyy]
        rw [hyp]
        rintro hin ⟨-, -, hf3, hf6, hf7, hf4, hf5⟩
        intro z t r ha hk
        rcases at_body I (x := x) hl hn ha rfl (fun _ => ⟨rfl, rfl, rfl⟩) rfl with ⟨h0, h1, h2⟩ | ⟨rfl, h1, h2⟩
        · rw [h2] at hk
          by_cases hsk : SlotIs (s.leaf x).b y.slot k
          · exfalso
            have e1 : (s.leaf z).b.ikey t = (s.leaf x).b.ikey y.slot := (shown_ikey hk).trans hsk.1.symm
            exact h0 (h1.home I hl hn (by rw [e1]; exact hf6) (by rw [e1]; exact hf7)).1
          · rw [if_neg hsk]; exact h z t r h1 hk
        · rw [h2] at hk
          have hk : shown (s.leaf z).b t k = some r := hk
          rcases (hin t).1 h1 with h1 | rfl
          · by_cases hsk : SlotIs (s.leaf z).b y.slot k
            · exfalso
              obtain ⟨i, hi, rfl⟩ := h1
              exact hf3 i hi ⟨(shown_ikey hk).trans hsk.1.symm, by rw [shown_cls hk, klx_searchKlx hsk]⟩
            · rw [if_neg hsk]; exact h z t r (.inl ⟨.inl hl, hfz, h1⟩) hk
          · rcases shown_cases hk with ⟨v, hv, hsk, hr⟩ | ⟨q, hq, _⟩
            · rw [if_pos hsk, hv, hr]
            · rw [hq] at hf4; cases hf4
      · rw [if_neg hc, if_neg (fun hh => hc hh.1)]; exact h
    | free => exact h
    | marked => exact h
    | take => exact h
    | clear => exact h
    | unfreeze => exact h
    | mark => exact h
    | setNext => exact h
    | publish => exact h
    | unlock => exact h
    | newborn => exact h
    | conv => exact h
  | update x t v =>
    unfold Chain.act written; simp only
    cases e : s.hold x with
    | locked lv =>
      cases e' : (s.leaf x).b.cell t with
      | val w =>
        simp only
        have hl := I.own x (by rw [e]; simp) (by rw [e]; simp)
        have hfz : (s.hold x).froz = none := by rw [e]; rfl
        have hn : (s.hold x).new = none := by rw [e]; rfl
        have hs := I.still hn hl
        have hE : E s x = (s.leaf x).b := E_none (by rw [e]; rfl)
        have hpr := T.pairs x hfz
        rw [hE] at hpr
        intro z t' r ha hk
        rcases at_body I (x := x) hl hn ha rfl (fun _ => ⟨rfl, rfl, rfl⟩) rfl with ⟨h0, h1, h2⟩ | ⟨rfl, h1, h2⟩
        · rw [h2] at hk
          by_cases hsk : freeSlot (s.leaf x).b.perm t = false ∧ SlotIs (s.leaf x).b t k
          · exfalso
            have hi : In (s.leaf x).b.perm t := by
              by_contra hh
              rw [(freeSlot_iff _ _).2 hh] at hsk; cases hsk.1
            obtain ⟨i, hi, ei⟩ := hi
            have e1 : (s.leaf z).b.ikey t' = (s.leaf x).b.ikey (get 5 (s.leaf x).b.perm i) := by
              rw [ei]; exact (shown_ikey hk).trans hsk.2.1.symm
            exact h0 (h1.home I hl hn (by rw [e1]; exact hs.2.2.1 i hi) (by rw [e1]; exact fun h0 => hs.2.2.2 h0 i hi)).1
          · rw [if_neg hsk]; exact h z t' r h1 hk
        · rw [h2] at hk
          have h1 : In (s.leaf z).b.perm t' := h1
          by_cases et : t' = t
          · subst et
            have hfr : freeSlot (s.leaf z).b.perm t' = false := by
              cases hfr : freeSlot (s.leaf z).b.perm t' with
              | false => rfl
              | true => exact absurd h1 ((freeSlot_iff _ _).1 hfr)
            rcases shown_cases hk with ⟨u, hv, hsk, hr⟩ | ⟨q, hq, _⟩
            · have hsk : SlotIs (s.leaf z).b t' k := hsk
              have hv : upd (s.leaf z).b.cell t' (.val v) t' = .val u := hv
              rw [upd_same] at hv
              rw [if_pos ⟨hfr, hsk⟩, hr]; cases hv; rfl
            · have hq : upd (s.leaf z).b.cell t' (.val v) t' = .layer q := hq
              rw [upd_same] at hq; cases hq
          · have hsm : Same { (s.leaf z).b with cell := upd (s.leaf z).b.cell t (.val v) } t' (s.leaf z).b t' :=
              ⟨rfl, rfl, rfl, upd_ne _ _ _ et⟩
            have hk : shown { (s.leaf z).b with cell := upd (s.leaf z).b.cell t (.val v) } t' k = some r := hk
            rw [hsm.shown k] at hk
            by_cases hsk : freeSlot (s.leaf z).b.perm t = false ∧ SlotIs (s.leaf z).b t k
            · exfalso
              have hi : In (s.leaf z).b.perm t := by
                by_contra hh
                rw [(freeSlot_iff _ _).2 hh] at hsk; cases hsk.1
              exact et (In.unique hpr h1 hi ((shown_ikey hk).trans hsk.2.1.symm) (by rw [shown_cls hk, klx_searchKlx hsk.2]))
            · rw [if_neg hsk]; exact h z t' r (.inl ⟨.inl hl, hfz, h1⟩) hk
      | null => exact h
      | layer q => exact h
    | free => exact h
    | marked => exact h
    | take => exact h
    | clear => exact h
    | unfreeze => exact h
    | mark => exact h
    | setNext => exact h
    | publish => exact h
    | unlock => exact h
    | newborn => exact h
    | conv => exact h
  | convert x t q =>
    show MapOk _ k m
    unfold Chain.act; simp only; split
    · rename_i lv e
      split
      · rename_i hg
        have hi : In (s.leaf x).b.perm t := by
          by_contra hh
          rw [(freeSlot_iff _ _).2 hh] at hg; cases hg.1
        have := h.conv I T (st := 0) (.inl ⟨e, rfl, hi, hg.2⟩) rfl rfl rfl
          (s' := { s with leaf := upd s.leaf x { s.leaf x with b := convStore (s.leaf x).b t q 0 }, hold := upd s.hold x (convNext lv t q 0) })
        rw [if_neg (by omega)] at this
        exact this
      · exact h
    · exact h
  | giveUp x =>
    show MapOk _ k m
    unfold Chain.act; simp only; split
    · rename_i lv e
      exact keep _ x (.unlock lv) (fun _ => rfl) rfl rfl (by rw [e]; rfl) (by rw [e]; rfl) (by rw [e]; rfl)
    · exact h
  | markSplit x =>
    show MapOk _ k m
    unfold Chain.act; simp only; split
    · rename_i lv e
      exact keep _ x (.marked _) (hw x _ rfl) rfl rfl (by rw [e]; rfl) (by rw [e]; rfl) (by rw [e]; rfl)
    · exact h
  | freeze x sp y =>
    show MapOk _ k m
    unfold Chain.act; simp only; split
    · rename_i lv e
      split
      · rename_i hc
        exact h.pull (Pull.freeze I e hc.2.2.2.1 rfl rfl rfl (fun t => ⟨rfl, rfl, rfl, rfl⟩)
          (by show size 5 (Verif.Perm.initial 128 5 24) = 0; exact size_initial))
      · exact h
    · exact h
  | hold x =>
    cases e : (s.hold x).trans with
    | none =>
      have : written s k (.hold x) = none := by
        unfold written; simp only
        split
        · rename_i e'; rw [e'] at e; cases e
        · rfl
      rw [this]
      exact h.pull (Pull.hstep I x e)
    | some t =>
      obtain ⟨lv, q, st, e⟩ := trans_iff.1 e
      have h1 : written s k (.hold x) = if st = 4 ∧ (s.leaf x).b.ikey t = k.ikey ∧ k.hasSuffix = true then some (.descend q) else none := by
        unfold written; simp only [e]
      have h2 : Chain.act f s (.hold x) = { s with leaf := upd s.leaf x { s.leaf x with b := convStore (s.leaf x).b t q st }, hold := upd s.hold x (convNext lv t q st) } := by
        show Chain.hstep s x = _
        unfold Chain.hstep; simp only [e]
      rw [h1, h2]
      have := h.conv I T (.inr ⟨e, hcv x lv t q st e⟩) rfl rfl rfl
        (s' := { s with leaf := upd s.leaf x { s.leaf x with b := convStore (s.leaf x).b t q st }, hold := upd s.hold x (convNext lv t q st) })
      split
      · rename_i r hr
        split at hr
        · rename_i hc; rw [if_pos hc] at this; cases hr; exact this
        · cases hr
      · rename_i hr
        split at hr
        · cases hr
        · rename_i hc; rw [if_neg hc] at this; exact this
  | release y =>
    show MapOk _ k m
    unfold Chain.act; simp only; split
    · rename_i e
      split
      · exact keep _ y .free (hw y _ rfl) rfl rfl (by rw [e]; rfl) (by rw [e]; rfl) (by rw [e]; rfl)
      · exact h
    · exact h
  | start i x k =>
    show MapOk _ _ m
    unfold Chain.act; simp only; split
    · split
      · exact h
      · exact h
    · split
      · exact h
      · exact h
    · exact h
  | read i => exact h

/-- The leaves hold what was written. -/
theorem Exec.contents {f : Bool} {σ : Nat → St V} (h : Exec f σ) {α : Nat → Option (Act V)} (hα : Steps f σ α) (k : Key)
    (n : Nat) : MapOk (σ n) k (contents σ α k n) := by
  induction n with
  | zero =>
    intro z t r ha hr
    have h1 : z = 1 ∧ In ((σ 0).leaf 1).b.perm t := by
      rcases ha with ⟨_, _, hj⟩ | ⟨raw, sp, y, j, e, _⟩ | ⟨x, raw, sp, e, _⟩
      · by_cases e : z = 1
        · subst e; exact ⟨rfl, hj⟩
        · exfalso; obtain ⟨j, hj, _⟩ := hj; rw [h.1.perms z e, size_initial] at hj; omega
      · rw [h.1.hold z] at e; cases e
      · rw [h.1.hold x] at e; cases e
    obtain ⟨rfl, j, hj, hjt⟩ := h1
    show leafSays ((σ 0).leaf 1).b k = r
    unfold leafSays
    cases e : (List.range (size 5 ((σ 0).leaf 1).b.perm)).findSome? fun j => shown ((σ 0).leaf 1).b (get 5 ((σ 0).leaf 1).b.perm j) k with
    | none =>
      rw [List.findSome?_eq_none_iff] at e
      have := e j (List.mem_range.2 hj)
      rw [hjt, hr] at this; cases this
    | some r' =>
      obtain ⟨i, hi, hi'⟩ := List.exists_of_findSome?_eq_some e
      rw [List.mem_range] at hi
      have := In.unique h.1.apart (t := get 5 ((σ 0).leaf 1).b.perm i) (t' := t) ⟨i, hi, rfl⟩ ⟨j, hj, hjt⟩
        ((shown_ikey hi').trans (shown_ikey hr).symm) ((shown_cls hi').trans (shown_cls hr).symm)
      rw [this, hr] at hi'; cases hi'; rfl
  | succ n ih =>
    have := hα n
    show MapOk _ k (match (α n).bind (written (σ n) k) with | some r => r | none => Chain.contents σ α k n)
    cases e : α n with
    | none => rw [e] at this; rw [this]; exact ih
    | some a => rw [e] at this; rw [this]; exact ih.act (h.inv n) (h.convOk n) (h.tidy n) f a

theorem not_frozen_froz {s : St V} (I : Inv s) {x : Nat} (hf : Freeze.isFrozen (s.leaf x).b.perm = false) : (s.hold x).froz = none := by
  cases hz : (s.hold x).froz with
  | none => rfl
  | some q =>
    obtain ⟨raw, sp, y⟩ := q
    rw [(I.frozen x raw sp y hz).1, Verif.Cas.freeze_frozen] at hf
    cases hf

theorem Exec.holds {f : Bool} {σ : Nat → St V} (h : Exec f σ) {α : Nat → Option (Act V)} (hα : Steps f σ α) {k : Key}
    {n : Nat} {r : Out V} (hh : Holds (σ n) k r) : Chain.contents σ α k n = r := by
  obtain ⟨x, j, h1, h2, h3, h4⟩ := hh
  exact h.contents hα k n x _ r (.inl ⟨.inl h1, not_frozen_froz (h.inv n) h2, j, h3, rfl⟩) h4

end Verif.Chain
