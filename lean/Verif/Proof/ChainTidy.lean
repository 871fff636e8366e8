import Verif.Proof.ChainWord
set_option linter.unusedSimpArgs false
set_option linter.unusedVariables false
/-!
# Published slots of a chain hold values and different keys
-/
namespace Verif.Chain
open Verif.Internode (upd upd_same upd_ne)
open Verif.Perm (size get makeSorted24 setSize params24)
open Verif.Tree (PermOK Leaf Cell permOK_initial size_initial size_makeSorted get_makeSorted)
open Verif.Cas (In Try in_newPerm not_lockable)
variable {V : Type}

/-- Position `j` has not been moved. -/
def Keeps (h : HPc) (sp j : Nat) : Prop := j < sp ∨ h.cnt ≤ j

/-- A leaf with the conversion of a slot taken as finished. -/
def HPc.eff (h : HPc) (b : Leaf V) : Leaf V :=
  match h with
  | .conv _ t q _ => { b with klx := upd b.klx t 128, cell := upd b.cell t (.layer q), ksuf := upd b.ksuf t none }
  | _ => b

/-- Leaf `x` with the conversion of a slot taken as finished. -/
def E (s : St V) (x : Nat) : Leaf V := (s.hold x).eff (s.leaf x).b

theorem eff_none {h : HPc} (e : h.trans = none) (b : Leaf V) : h.eff b = b := by
  cases h <;> first | rfl | cases e

theorem E_none {s : St V} {x : Nat} (e : (s.hold x).trans = none) : E s x = (s.leaf x).b := eff_none e _

theorem E_perm (s : St V) (x : Nat) : (E s x).perm = (s.leaf x).b.perm := by
  unfold E HPc.eff; split <;> rfl

theorem E_ikey (s : St V) (x : Nat) : (E s x).ikey = (s.leaf x).b.ikey := by
  unfold E HPc.eff; split <;> rfl

/-- Slots other than the one that is being converted. -/
theorem E_ne {s : St V} {x t : Nat} (e : (s.hold x).trans ≠ some t) :
    (E s x).klx t = (s.leaf x).b.klx t ∧ (E s x).cell t = (s.leaf x).b.cell t ∧ (E s x).ksuf t = (s.leaf x).b.ksuf t := by
  unfold E HPc.eff
  split
  · rename_i lv t' q st eh
    rw [eh] at e
    have ht : t ≠ t' := by rintro rfl; exact e rfl
    exact ⟨upd_ne _ _ _ ht, upd_ne _ _ _ ht, upd_ne _ _ _ ht⟩
  · exact ⟨rfl, rfl, rfl⟩

theorem froz_trans {h : HPc} {r : BitVec 128 × Nat × Nat} (e : h.froz = some r) : h.trans = none := by
  cases h <;> first | rfl | cases e

theorem Good.to {b b' : Leaf V} {t t' : Nat} (h : Good b t) (c : b'.cell t' = b.cell t) (k : b'.klx t' = b.klx t)
    (f : b'.ksuf t' = b.ksuf t) : Good b' t' := by
  unfold Good at h ⊢; rw [c, k, f]; exact h

structure Tidy (s : St V) : Prop where
  good : ∀ x, (s.hold x).froz = none → ∀ j, j < size 5 (E s x).perm → Good (E s x) (get 5 (E s x).perm j)
  pairs : ∀ x, (s.hold x).froz = none → ∀ i j, i < j → j < size 5 (E s x).perm →
    ¬ Twin (E s x) (get 5 (E s x).perm i) (E s x) (get 5 (E s x).perm j)
  fgood : ∀ x raw sp y, (s.hold x).froz = some (raw, sp, y) → ∀ j, j < size 5 raw → Keeps (s.hold x) sp j →
    Good (E s x) (get 5 raw j)
  fpairs : ∀ x raw sp y, (s.hold x).froz = some (raw, sp, y) → ∀ i j, i < j → j < size 5 raw → Keeps (s.hold x) sp i →
    Keeps (s.hold x) sp j → ¬ Twin (E s x) (get 5 raw i) (E s x) (get 5 raw j)
  ygood : ∀ x raw sp y, (s.hold x).froz = some (raw, sp, y) → ∀ u, u < (s.hold x).cnt - sp → Good (E s y) u
  ypairs : ∀ x raw sp y, (s.hold x).froz = some (raw, sp, y) → ∀ u w, u < w → w < (s.hold x).cnt - sp →
    ¬ Twin (E s y) u (E s y) w
  cross : ∀ x raw sp y, (s.hold x).froz = some (raw, sp, y) → ∀ u j, u < (s.hold x).cnt - sp → (s.hold x).cnt ≤ j →
    j < size 5 raw → ¬ Twin (E s y) u (E s x) (get 5 raw j)

theorem Tidy.frame {s s' : St V} (h : Tidy s) (hb : ∀ x, E s' x = E s x)
    (hf : ∀ x, (s'.hold x).froz = (s.hold x).froz ∧ (s'.hold x).cnt = (s.hold x).cnt) : Tidy s' := by
  have hk : ∀ x sp j, Keeps (s'.hold x) sp j ↔ Keeps (s.hold x) sp j := by
    intro x sp j; unfold Keeps; rw [(hf x).2]
  constructor
  · intro x; rw [hb, (hf x).1]; exact h.good x
  · intro x; rw [hb, (hf x).1]; exact h.pairs x
  · intro x raw sp y; rw [hb, (hf x).1]; simp only [hk]; exact h.fgood x raw sp y
  · intro x raw sp y; rw [hb, (hf x).1]; simp only [hk]; exact h.fpairs x raw sp y
  · intro x raw sp y; rw [hb, (hf x).1, (hf x).2]; exact h.ygood x raw sp y
  · intro x raw sp y; rw [hb, (hf x).1, (hf x).2]; exact h.ypairs x raw sp y
  · intro x raw sp y; rw [hb, hb, (hf x).1, (hf x).2]; exact h.cross x raw sp y

/-- One leaf that is in the chain and not being split changes. -/
theorem Tidy.body {s s' : St V} (I : Inv s) (h : Tidy s) {x : Nat} (hl : s.live x = true)
    (hx : (s.hold x).froz = none) (hx' : (s'.hold x).froz = none) (hleaf : ∀ z, z ≠ x → s'.leaf z = s.leaf z)
    (hhold : ∀ z, z ≠ x → s'.hold z = s.hold z)
    (h1 : ∀ j, j < size 5 (E s' x).perm → Good (E s' x) (get 5 (E s' x).perm j))
    (h2 : ∀ i j, i < j → j < size 5 (E s' x).perm → ¬ Twin (E s' x) (get 5 (E s' x).perm i) (E s' x) (get 5 (E s' x).perm j)) :
    Tidy s' := by
  have hL : ∀ z, z ≠ x → E s' z = E s z := fun z hz => by unfold E; rw [hleaf z hz, hhold z hz]
  have hne : ∀ z raw sp y, (s'.hold z).froz = some (raw, sp, y) → z ≠ x ∧ y ≠ x := by
    intro z raw sp y e
    have hz : z ≠ x := by rintro rfl; rw [hx'] at e; cases e
    refine ⟨hz, ?_⟩
    rintro rfl
    rw [hhold z hz] at e
    have := (I.new z y (froz_new e)).2.2.1
    rw [hl] at this; cases this
  constructor
  · intro z hz
    by_cases e : z = x
    · subst e; exact h1
    · rw [hhold z e] at hz; rw [hL z e]; exact h.good z hz
  · intro z hz
    by_cases e : z = x
    · subst e; exact h2
    · rw [hhold z e] at hz; rw [hL z e]; exact h.pairs z hz
  · intro z raw sp y hz; have n := hne z _ _ _ hz; rw [hhold z n.1] at hz ⊢; rw [hL z n.1]; exact h.fgood z raw sp y hz
  · intro z raw sp y hz; have n := hne z _ _ _ hz; rw [hhold z n.1] at hz ⊢; rw [hL z n.1]; exact h.fpairs z raw sp y hz
  · intro z raw sp y hz; have n := hne z _ _ _ hz; rw [hhold z n.1] at hz ⊢; rw [hL y n.2]; exact h.ygood z raw sp y hz
  · intro z raw sp y hz; have n := hne z _ _ _ hz; rw [hhold z n.1] at hz ⊢; rw [hL y n.2]; exact h.ypairs z raw sp y hz
  · intro z raw sp y hz; have n := hne z _ _ _ hz; rw [hhold z n.1] at hz ⊢; rw [hL z n.1, hL y n.2]; exact h.cross z raw sp y hz

/-- As above, when nothing is being converted. -/
theorem Tidy.body1 {s s' : St V} (I : Inv s) (h : Tidy s) {x : Nat} {l : LeafSt V} (hl : s.live x = true)
    (hx : (s.hold x).froz = none) (ht : (s.hold x).trans = none) (hleaf : s'.leaf = upd s.leaf x l) (hhold : s'.hold = s.hold)
    (h1 : ∀ j, j < size 5 l.b.perm → Good l.b (get 5 l.b.perm j))
    (h2 : ∀ i j, i < j → j < size 5 l.b.perm → ¬ Twin l.b (get 5 l.b.perm i) l.b (get 5 l.b.perm j)) : Tidy s' := by
  have hE : E s' x = l.b := by rw [E_none (by rw [hhold]; exact ht), hleaf, upd_same]
  refine h.body I hl hx (by rw [hhold]; exact hx) (fun z hz => by rw [hleaf, upd_ne _ _ _ hz]) (fun _ _ => by rw [hhold]) ?_ ?_
  · rw [hE]; exact h1
  · rw [hE]; exact h2

/-- Bodies of a leaf `x` being split and its new leaf `y` change. -/
theorem Tidy.mid {s s' : St V} (I : Inv s) (h : Tidy s) {x y sp : Nat} {raw : BitVec 128} {lx ly : LeafSt V} {h' : HPc}
    (hz : (s.hold x).froz = some (raw, sp, y)) (hz' : h'.froz = some (raw, sp, y))
    (hleaf : s'.leaf = upd (upd s.leaf y ly) x lx) (hhold : s'.hold = upd s.hold x h')
    (yp : ly.b.perm = (s.leaf y).b.perm)
    (h1 : ∀ j, j < size 5 raw → Keeps h' sp j → Good lx.b (get 5 raw j))
    (h2 : ∀ i j, i < j → j < size 5 raw → Keeps h' sp i → Keeps h' sp j → ¬ Twin lx.b (get 5 raw i) lx.b (get 5 raw j))
    (h3 : ∀ u, u < h'.cnt - sp → Good ly.b u)
    (h4 : ∀ u w, u < w → w < h'.cnt - sp → ¬ Twin ly.b u ly.b w)
    (h5 : ∀ u j, u < h'.cnt - sp → h'.cnt ≤ j → j < size 5 raw → ¬ Twin ly.b u lx.b (get 5 raw j)) : Tidy s' := by
  have hnew := I.new x y (froz_new hz)
  have hyp0 := (I.frozen x raw sp y hz).2.2.2.2.2.1
  have hyx : y ≠ x := by
    rintro rfl
    have := hnew.1; rw [hnew.2.2.1] at this; cases this
  have hH : ∀ z, z ≠ x → s'.hold z = s.hold z := fun z hz => by rw [hhold, upd_ne _ _ _ hz]
  have hHx : s'.hold x = h' := by rw [hhold, upd_same]
  have hyh : s.hold y = .newborn := hnew.2.2.2.2.1
  have hL : ∀ z, z ≠ x → z ≠ y → E s' z = E s z := fun z hz hzy => by
    unfold E; rw [hleaf, upd_ne _ _ _ hz, upd_ne _ _ _ hzy, hH z hz]
  have hLx : E s' x = lx.b := by unfold E; rw [hleaf, upd_same, hHx, eff_none (froz_trans hz')]
  have hLy : E s' y = ly.b := by unfold E; rw [hleaf, upd_ne _ _ _ hyx, upd_same, hH y hyx, hyh]; rfl
  have other : ∀ z raw1 sp1 y1, z ≠ x → (s.hold z).froz = some (raw1, sp1, y1) → z ≠ y ∧ y1 ≠ x ∧ y1 ≠ y := by
    intro z raw1 sp1 y1 ez e
    refine ⟨?_, ?_, ?_⟩
    · rintro rfl; rw [hyh] at e; cases e
    · rintro rfl
      have := (I.new z y1 (froz_new e)).2.2.1
      rw [hnew.1] at this; cases this
    · rintro rfl; exact ez (I.uniq z x y1 (froz_new e) (froz_new hz))
  have hyz : size 5 ly.b.perm = 0 := by rw [yp, hyp0, size_initial]
  constructor
  · intro z e
    by_cases ex : z = x
    · subst ex; rw [hHx, hz'] at e; cases e
    · by_cases ey : z = y
      · subst ey; rw [hLy]; intro j hj; omega
      · rw [hH z ex] at e; rw [hL z ex ey]; exact h.good z e
  · intro z e
    by_cases ex : z = x
    · subst ex; rw [hHx, hz'] at e; cases e
    · by_cases ey : z = y
      · subst ey; rw [hLy]; intro i j _ hj; omega
      · rw [hH z ex] at e; rw [hL z ex ey]; exact h.pairs z e
  · intro z raw1 sp1 y1 e
    by_cases ex : z = x
    · subst ex; rw [hHx] at e ⊢; rw [hz'] at e; cases e; rw [hLx]; exact h1
    · rw [hH z ex] at e ⊢
      have o := other z _ _ _ ex e
      rw [hL z ex o.1]; exact h.fgood z _ _ _ e
  · intro z raw1 sp1 y1 e
    by_cases ex : z = x
    · subst ex; rw [hHx] at e ⊢; rw [hz'] at e; cases e; rw [hLx]; exact h2
    · rw [hH z ex] at e ⊢
      have o := other z _ _ _ ex e
      rw [hL z ex o.1]; exact h.fpairs z _ _ _ e
  · intro z raw1 sp1 y1 e
    by_cases ex : z = x
    · subst ex; rw [hHx] at e ⊢; rw [hz'] at e; cases e; rw [hLy]; exact h3
    · rw [hH z ex] at e ⊢
      have o := other z _ _ _ ex e
      rw [hL y1 o.2.1 o.2.2]; exact h.ygood z _ _ _ e
  · intro z raw1 sp1 y1 e
    by_cases ex : z = x
    · subst ex; rw [hHx] at e ⊢; rw [hz'] at e; cases e; rw [hLy]; exact h4
    · rw [hH z ex] at e ⊢
      have o := other z _ _ _ ex e
      rw [hL y1 o.2.1 o.2.2]; exact h.ypairs z _ _ _ e
  · intro z raw1 sp1 y1 e
    by_cases ex : z = x
    · subst ex; rw [hHx] at e ⊢; rw [hz'] at e; cases e; rw [hLx, hLy]; exact h5
    · rw [hH z ex] at e ⊢
      have o := other z _ _ _ ex e
      rw [hL z ex o.1, hL y1 o.2.1 o.2.2]; exact h.cross z _ _ _ e

/-- The permutation is frozen. -/
theorem Tidy.freeze {s s' : St V} (I : Inv s) (h : Tidy s) {x y sp : Nat} {lv : NV.W} {lx ly : LeafSt V}
    (hx : s.hold x = .marked lv) (hu : s.used y = false)
    (hleaf : s'.leaf = upd (upd s.leaf y ly) x lx)
    (hhold : s'.hold = upd (upd s.hold y .newborn) x (.take lv (s.leaf x).b.perm sp y sp))
    (xi : lx.b.ikey = (s.leaf x).b.ikey) (xk : lx.b.klx = (s.leaf x).b.klx) (xc : lx.b.cell = (s.leaf x).b.cell)
    (xs : lx.b.ksuf = (s.leaf x).b.ksuf)
    (yp : size 5 ly.b.perm = 0) : Tidy s' := by
  have hxl : s.live x = true := I.own x (by rw [hx]; simp) (by rw [hx]; simp)
  have hyx : y ≠ x := by
    rintro rfl
    have := I.used y hxl; rw [hu] at this; cases this
  have hH : ∀ z, z ≠ x → z ≠ y → s'.hold z = s.hold z := fun z hz hzy => by
    rw [hhold, upd_ne _ _ _ hz, upd_ne _ _ _ hzy]
  have hHx : s'.hold x = .take lv (s.leaf x).b.perm sp y sp := by rw [hhold, upd_same]
  have hHy : s'.hold y = .newborn := by rw [hhold, upd_ne _ _ _ hyx, upd_same]
  have hL : ∀ z, z ≠ x → z ≠ y → E s' z = E s z := fun z hz hzy => by
    unfold E; rw [hleaf, upd_ne _ _ _ hz, upd_ne _ _ _ hzy, hH z hz hzy]
  have hLx : E s' x = lx.b := by unfold E; rw [hleaf, upd_same, hHx, eff_none rfl]
  have hLy : E s' y = ly.b := by unfold E; rw [hleaf, upd_ne _ _ _ hyx, upd_same, hHy]; rfl
  have hyf : s.hold y = .free := by
    by_contra e
    have := I.busy y e
    rw [hu] at this; cases this
  have other : ∀ z raw1 sp1 y1, z ≠ x → (s'.hold z).froz = some (raw1, sp1, y1) →
      z ≠ y ∧ y1 ≠ x ∧ y1 ≠ y ∧ s'.hold z = s.hold z := by
    intro z raw1 sp1 y1 ez e
    have ey : z ≠ y := by rintro rfl; rw [hHy] at e; cases e
    have e2 := hH z ez ey
    rw [e2] at e
    refine ⟨ey, ?_, ?_, e2⟩
    · rintro rfl
      have := (I.new z y1 (froz_new e)).2.2.1
      rw [hxl] at this; cases this
    · rintro rfl
      have := (I.new z y1 (froz_new e)).2.2.2.1
      rw [hu] at this; cases this
  have hg := h.good x (by rw [hx]; rfl)
  have hp := h.pairs x (by rw [hx]; rfl)
  rw [E_none (by rw [hx]; rfl)] at hg hp
  constructor
  · intro z e
    by_cases ex : z = x
    · subst ex; rw [hHx] at e; cases e
    · by_cases ey : z = y
      · subst ey; rw [hLy]; intro j hj; omega
      · rw [hH z ex ey] at e; rw [hL z ex ey]; exact h.good z e
  · intro z e
    by_cases ex : z = x
    · subst ex; rw [hHx] at e; cases e
    · by_cases ey : z = y
      · subst ey; rw [hLy]; intro i j _ hj; omega
      · rw [hH z ex ey] at e; rw [hL z ex ey]; exact h.pairs z e
  · intro z raw1 sp1 y1 e
    by_cases ex : z = x
    · subst ex; rw [hHx] at e; cases e; rw [hLx]
      intro j hj _
      exact (hg j hj).to (by rw [xc]) (by rw [xk]) (by rw [xs])
    · have o := other z _ _ _ ex e
      rw [o.2.2.2] at e ⊢
      rw [hL z ex o.1]; exact h.fgood z _ _ _ e
  · intro z raw1 sp1 y1 e
    by_cases ex : z = x
    · subst ex; rw [hHx] at e; cases e; rw [hLx]
      intro i j hij hj _ _
      have := hp i j hij hj
      unfold Twin at this ⊢
      rw [xi, xk]; exact this
    · have o := other z _ _ _ ex e
      rw [o.2.2.2] at e ⊢
      rw [hL z ex o.1]; exact h.fpairs z _ _ _ e
  · intro z raw1 sp1 y1 e
    by_cases ex : z = x
    · subst ex; rw [hHx] at e ⊢; cases e
      intro u hu; have : u < sp - sp := hu; omega
    · have o := other z _ _ _ ex e
      rw [o.2.2.2] at e ⊢
      rw [hL y1 o.2.1 o.2.2.1]; exact h.ygood z _ _ _ e
  · intro z raw1 sp1 y1 e
    by_cases ex : z = x
    · subst ex; rw [hHx] at e ⊢; cases e
      intro u w _ hu; have : w < sp - sp := hu; omega
    · have o := other z _ _ _ ex e
      rw [o.2.2.2] at e ⊢
      rw [hL y1 o.2.1 o.2.2.1]; exact h.ypairs z _ _ _ e
  · intro z raw1 sp1 y1 e
    by_cases ex : z = x
    · subst ex; rw [hHx] at e ⊢; cases e
      intro u j hu; have : u < sp - sp := hu; omega
    · have o := other z _ _ _ ex e
      rw [o.2.2.2] at e ⊢
      rw [hL z ex o.1, hL y1 o.2.1 o.2.2.1]; exact h.cross z _ _ _ e

/-- The permutations of the two leaves are stored. -/
theorem Tidy.unfreeze {s s' : St V} (I : Inv s) (h : Tidy s) {x y sp : Nat} {raw : BitVec 128} {lv : NV.W} {lx ly : LeafSt V}
    (hx : s.hold x = .unfreeze lv raw sp y)
    (hleaf : s'.leaf = upd (upd s.leaf y ly) x lx) (hhold : s'.hold = upd s.hold x (.mark lv y))
    (xp : lx.b.perm = setSize 5 raw sp) (xi : lx.b.ikey = (s.leaf x).b.ikey) (xk : lx.b.klx = (s.leaf x).b.klx)
    (xc : lx.b.cell = (s.leaf x).b.cell) (xs : lx.b.ksuf = (s.leaf x).b.ksuf)
    (yp : ly.b.perm = makeSorted24 (size 5 raw - sp)) (yi : ly.b.ikey = (s.leaf y).b.ikey)
    (yk : ly.b.klx = (s.leaf y).b.klx) (yc : ly.b.cell = (s.leaf y).b.cell) (ys : ly.b.ksuf = (s.leaf y).b.ksuf) : Tidy s' := by
  have hz : (s.hold x).froz = some (raw, sp, y) := by rw [hx]; rfl
  have hnew := I.new x y (froz_new hz)
  obtain ⟨hf1, hpo, hsp0, hsp1, hlo1, hyp0, hc1, hc2, hcopy⟩ := I.frozen x raw sp y hz
  have hcnt : (s.hold x).cnt = size 5 raw := by rw [hx]; rfl
  have hsl := hpo.size_le
  have hyx : y ≠ x := by
    rintro rfl
    have := hnew.1; rw [hnew.2.2.1] at this; cases this
  have hH : ∀ z, z ≠ x → s'.hold z = s.hold z := fun z hz => by rw [hhold, upd_ne _ _ _ hz]
  have hHx : s'.hold x = .mark lv y := by rw [hhold, upd_same]
  have hyh : s.hold y = .newborn := hnew.2.2.2.2.1
  have hL : ∀ z, z ≠ x → z ≠ y → E s' z = E s z := fun z hz hzy => by
    unfold E; rw [hleaf, upd_ne _ _ _ hz, upd_ne _ _ _ hzy, hH z hz]
  have hLx : E s' x = lx.b := by unfold E; rw [hleaf, upd_same, hHx, eff_none rfl]
  have hLy : E s' y = ly.b := by unfold E; rw [hleaf, upd_ne _ _ _ hyx, upd_same, hH y hyx, hyh]; rfl
  have other : ∀ z raw1 sp1 y1, z ≠ x → (s.hold z).froz = some (raw1, sp1, y1) → z ≠ y ∧ y1 ≠ x ∧ y1 ≠ y := by
    intro z raw1 sp1 y1 ez e
    refine ⟨?_, ?_, ?_⟩
    · rintro rfl; rw [hyh] at e; cases e
    · rintro rfl
      have := (I.new z y1 (froz_new e)).2.2.1
      rw [hnew.1] at this; cases this
    · rintro rfl; exact ez (I.uniq z x y1 (froz_new e) (froz_new hz))
  have hxsz : size 5 lx.b.perm = sp := by rw [xp]; exact Verif.Perm.size_setSize params24 _ (by omega)
  have hxg : ∀ i, i < 24 → get 5 lx.b.perm i = get 5 raw i := fun i hi => by
    rw [xp]; exact Verif.Perm.get_setSize params24 _ (by omega) hi
  have hysz : size 5 ly.b.perm = size 5 raw - sp := by rw [yp]; exact size_makeSorted _ (by omega)
  have hyg : ∀ i, i < size 5 raw - sp → get 5 ly.b.perm i = i := fun i hi => by
    rw [yp]; exact get_makeSorted _ (by omega) i hi
  have hEx : E s x = (s.leaf x).b := E_none (by rw [hx]; rfl)
  have hEy : E s y = (s.leaf y).b := E_none (by rw [hyh]; rfl)
  have notf : ∀ z raw1 sp1 y1, (s'.hold z).froz = some (raw1, sp1, y1) → z ≠ x := by
    rintro z _ _ _ e rfl; rw [hHx] at e; cases e
  constructor
  · intro z e
    by_cases ex : z = x
    · subst ex; rw [hLx]
      intro j hj
      rw [hxg j (by omega)]
      have := h.fgood z raw sp y hz j (by omega) (.inl (by omega))
      rw [hEx] at this; exact this.to (by rw [xc]) (by rw [xk]) (by rw [xs])
    · by_cases ey : z = y
      · subst ey; rw [hLy]; intro j hj
        rw [hyg j (by omega)]
        have := h.ygood x raw sp z hz j (by omega)
        rw [hEy] at this; exact this.to (by rw [yc]) (by rw [yk]) (by rw [ys])
      · rw [hH z ex] at e; rw [hL z ex ey]; exact h.good z e
  · intro z e
    by_cases ex : z = x
    · subst ex; rw [hLx]
      intro i j hij hj
      rw [hxg j (by omega), hxg i (by omega)]
      have := h.fpairs z raw sp y hz i j hij (by omega) (.inl (by omega)) (.inl (by omega))
      rw [hEx] at this; unfold Twin at this ⊢; rw [xi, xk]; exact this
    · by_cases ey : z = y
      · subst ey; rw [hLy]; intro i j hij hj
        rw [hyg j (by omega), hyg i (by omega)]
        have := h.ypairs x raw sp z hz i j hij (by omega)
        rw [hEy] at this; unfold Twin at this ⊢; rw [yi, yk]; exact this
      · rw [hH z ex] at e; rw [hL z ex ey]; exact h.pairs z e
  · intro z raw1 sp1 y1 e
    have ex := notf z _ _ _ e
    rw [hH z ex] at e ⊢
    have o := other z _ _ _ ex e
    rw [hL z ex o.1]; exact h.fgood z _ _ _ e
  · intro z raw1 sp1 y1 e
    have ex := notf z _ _ _ e
    rw [hH z ex] at e ⊢
    have o := other z _ _ _ ex e
    rw [hL z ex o.1]; exact h.fpairs z _ _ _ e
  · intro z raw1 sp1 y1 e
    have ex := notf z _ _ _ e
    rw [hH z ex] at e ⊢
    have o := other z _ _ _ ex e
    rw [hL y1 o.2.1 o.2.2]; exact h.ygood z _ _ _ e
  · intro z raw1 sp1 y1 e
    have ex := notf z _ _ _ e
    rw [hH z ex] at e ⊢
    have o := other z _ _ _ ex e
    rw [hL y1 o.2.1 o.2.2]; exact h.ypairs z _ _ _ e
  · intro z raw1 sp1 y1 e
    have ex := notf z _ _ _ e
    rw [hH z ex] at e ⊢
    have o := other z _ _ _ ex e
    rw [hL z ex o.1, hL y1 o.2.1 o.2.2]; exact h.cross z _ _ _ e

theorem get_ne {p : BitVec 128} (h : PermOK p) {i j : Nat} (hi : i < size 5 p) (hj : j < size 5 p) (e : i ≠ j) :
    get 5 p i ≠ get 5 p j := by
  intro e'
  have := h.size_le
  exact e (h.inj i j (by omega) (by omega) e')

/-- A store of a conversion. -/
theorem Tidy.conv {s s' : St V} (I : Inv s) (h : Tidy s) {x t q st : Nat} {lv : NV.W}
    (hx : (s.hold x = .locked lv ∧ st = 0 ∧ (s.leaf x).b.klx t = 64) ∨ (s.hold x = .conv lv t q st ∧ ConvAt (s.leaf x).b t st))
    (hleaf : s'.leaf = upd s.leaf x { s.leaf x with b := convStore (s.leaf x).b t q st })
    (hhold : s'.hold = upd s.hold x (convNext lv t q st)) : Tidy s' := by
  have hl : s.live x = true := by
    rcases hx with ⟨e, _⟩ | ⟨e, _⟩ <;> exact I.own x (by rw [e]; simp) (by rw [e]; simp)
  have hfz : (s.hold x).froz = none := by rcases hx with ⟨e, _⟩ | ⟨e, _⟩ <;> rw [e] <;> rfl
  have hL : (s'.leaf x).b = convStore (s.leaf x).b t q st := by rw [hleaf, upd_same]
  have hH : s'.hold x = convNext lv t q st := by rw [hhold, upd_same]
  have hp : (E s' x).perm = (E s x).perm := by rw [E_perm, E_perm, hL, convStore_perm]
  have hi : (E s' x).ikey = (E s x).ikey := by rw [E_ikey, E_ikey, hL, convStore_ikey]
  have hne : ∀ t', t' ≠ t → (E s' x).klx t' = (E s x).klx t' ∧ (E s' x).cell t' = (E s x).cell t' ∧ (E s' x).ksuf t' = (E s x).ksuf t' := by
    intro t' ht
    have n1 : (s.hold x).trans ≠ some t' := by
      rcases hx with ⟨e, _⟩ | ⟨e, _⟩ <;> rw [e]
      · simp [HPc.trans]
      · intro e; cases e; exact ht rfl
    have n2 : (s'.hold x).trans ≠ some t' := by rw [hH]; exact fun e => ht (trans_convNext e).1
    have a := E_ne n1
    have b := E_ne n2
    have c := convStore_ne (s.leaf x).b q st ht
    rw [hL, c.1, c.2.1, c.2.2] at b
    exact ⟨b.1.trans a.1.symm, b.2.1.trans a.2.1.symm, b.2.2.trans a.2.2.symm⟩
  have ht : (E s' x).klx t = 128 ∧ (E s' x).cell t = .layer q ∧ (E s' x).ksuf t = none := by
    by_cases h4 : st < 4
    · have : E s' x = HPc.eff (.conv lv t q (st + 1)) (s'.leaf x).b := by
        unfold E; rw [hH]; unfold convNext; rw [if_pos h4]
      rw [this]
      exact ⟨upd_same _ _ _, upd_same _ _ _, upd_same _ _ _⟩
    · rcases hx with ⟨_, e, _⟩ | ⟨_, hc⟩
      · omega
      · have e4 : st = 4 := by have := hc.last; omega
        subst e4
        rw [E_none (by rw [hH]; rfl), hL]
        rcases convStore_cases (s.leaf x).b t q 4 with ⟨e, _⟩ | ⟨e, _⟩ | ⟨e, _⟩ | ⟨e, _⟩ | ⟨_, e⟩ | ⟨e, _⟩
        · omega
        · omega
        · omega
        · omega
        · rw [e]; exact ⟨hc.klx, upd_same _ _ _, hc.ksuf (by omega)⟩
        · omega
  have hcls : cls ((E s x).klx t) = 64 := by
    rcases hx with ⟨e, _, hk⟩ | ⟨e, _⟩
    · rw [E_none (by rw [e]; rfl), hk]; rfl
    · unfold E; rw [e]; show cls (upd _ _ _ _) = 64; rw [upd_same]; rfl
  have hcl : ∀ t', cls ((E s' x).klx t') = cls ((E s x).klx t') := by
    intro t'
    by_cases e : t' = t
    · rw [e, hcls, ht.1]; rfl
    · rw [(hne t' e).1]
  refine h.body I hl hfz ?_ ?_ ?_ ?_ ?_
  · rw [hH]; unfold convNext; split <;> rfl
  · intro z hz; rw [hleaf, upd_ne _ _ _ hz]
  · intro z hz; rw [hhold, upd_ne _ _ _ hz]
  · rw [hp]
    intro j hj
    by_cases e : get 5 (E s x).perm j = t
    · rw [e]; exact .inr ⟨⟨q, ht.2.1⟩, ht.1, ht.2.2⟩
    · have n := hne _ e
      exact (h.good x hfz j hj).to n.2.1 n.1 n.2.2
  · rw [hp]
    intro i j hij hj
    have := h.pairs x hfz i j hij hj
    unfold Twin at this ⊢
    rw [hi, hcl, hcl]; exact this

theorem Tidy.hstep {s : St V} (I : Inv s) (hcv : ConvOk s) (h : Tidy s) (x : Nat) : Tidy (hstep s x) := by
  have keep : ∀ (s' : St V) (h' : HPc), (∀ z, (s'.leaf z).b = (s.leaf z).b) → s'.hold = upd s.hold x h' →
      (s.hold x).trans = none → h'.trans = none →
      h'.froz = (s.hold x).froz → h'.cnt = (s.hold x).cnt → Tidy s' := by
    intro s' h' hb hh t1 t2 h1 h2
    refine h.frame ?_ ?_
    · intro z
      unfold E
      rw [hb, hh, upd_if]
      split
      · rename_i e; subst e; rw [eff_none t1, eff_none t2]
      · rfl
    · intro z
      rw [hh, upd_if]
      split
      · rename_i e; subst e; exact ⟨h1, h2⟩
      · exact ⟨rfl, rfl⟩
  unfold Chain.hstep
  split
  case h_1 lv raw sp y j e =>
    have hz : (s.hold x).froz = some (raw, sp, y) := by rw [e]; rfl
    have hcnt : (s.hold x).cnt = j := by rw [e]; rfl
    obtain ⟨hf1, hpo, hsp0, hsp1, hlo1, hyp0, hc1, hc2, hcopy⟩ := I.frozen x raw sp y hz
    rw [hcnt] at hc1 hc2 hcopy
    have g1 := h.fgood x raw sp y hz
    have g2 := h.fpairs x raw sp y hz
    have g3 := h.ygood x raw sp y hz
    have g4 := h.ypairs x raw sp y hz
    have g5 := h.cross x raw sp y hz
    unfold Keeps at g1 g2
    rw [hcnt] at g1 g2 g3 g4 g5
    rw [E_none (froz_trans hz)] at g1 g2 g5
    rw [E_none (by rw [(I.new x y (froz_new hz)).2.2.2.2.1]; rfl)] at g3 g4 g5
    split
    · rename_i hj
      have cne : ∀ i, i < size 5 raw → i ≠ j → upd (s.leaf x).b.cell (get 5 raw j) .null (get 5 raw i) = (s.leaf x).b.cell (get 5 raw i) := by
        intro i hi hij
        exact upd_ne _ _ _ (get_ne hpo hi hj hij)
      refine h.mid I (h' := .clear lv raw sp y j) hz rfl rfl rfl rfl ?_ ?_ ?_ ?_ ?_
      · intro i hi hk
        have hk : i < sp ∨ j + 1 ≤ i := hk
        exact (g1 i hi (by omega)).to (cne i hi (by omega)) rfl rfl
      · intro i i' hlt hi hk hk'
        have hk : i < sp ∨ j + 1 ≤ i := hk
        have hk' : i' < sp ∨ j + 1 ≤ i' := hk'
        exact g2 i i' hlt hi (by omega) (by omega)
      · intro u hu
        have hu : u < j + 1 - sp := hu
        by_cases eu : u = j - sp
        · subst eu
          exact (g1 j hj (.inr (Nat.le_refl _))).to (upd_same _ _ _) (upd_same _ _ _) (upd_same _ _ _)
        · exact (g3 u (by omega)).to (upd_ne _ _ _ eu) (upd_ne _ _ _ eu) (upd_ne _ _ _ eu)
      · intro u w huw hw
        have hw : w < j + 1 - sp := hw
        show ¬ (upd _ _ _ u = upd _ _ _ w ∧ cls (upd _ _ _ u) = cls (upd _ _ _ w))
        rw [upd_ne _ _ _ (show u ≠ j - sp by omega), upd_ne _ _ _ (show u ≠ j - sp by omega)]
        by_cases ew : w = j - sp
        · subst ew; rw [upd_same, upd_same]; exact g5 u j (by omega) (Nat.le_refl _) hj
        · rw [upd_ne _ _ _ ew, upd_ne _ _ _ ew]; exact g4 u w huw (by omega)
      · intro u i hu hi1 hi
        have hu : u < j + 1 - sp := hu
        have hi1 : j + 1 ≤ i := hi1
        show ¬ (upd _ _ _ u = _ ∧ cls (upd _ _ _ u) = _)
        by_cases eu : u = j - sp
        · subst eu; rw [upd_same, upd_same]
          exact g2 j i (by omega) hi (.inr (Nat.le_refl _)) (.inr (by omega))
        · rw [upd_ne _ _ _ eu, upd_ne _ _ _ eu]; exact g5 u i (by omega) (by omega) hi
    · refine keep _ (.unfreeze lv raw sp y) (fun _ => rfl) rfl (froz_trans hz) rfl hz.symm ?_
      rw [hcnt]; show size 5 raw = j; omega
  case h_2 lv raw sp y j e =>
    have hz : (s.hold x).froz = some (raw, sp, y) := by rw [e]; rfl
    have hcnt : (s.hold x).cnt = j + 1 := by rw [e]; rfl
    have hjl := I.jle x lv raw sp y j e
    obtain ⟨hf1, hpo, hsp0, hsp1, hlo1, hyp0, hc1, hc2, hcopy⟩ := I.frozen x raw sp y hz
    rw [hcnt] at hc1 hc2 hcopy
    have g1 := h.fgood x raw sp y hz
    have g2 := h.fpairs x raw sp y hz
    have g3 := h.ygood x raw sp y hz
    have g4 := h.ypairs x raw sp y hz
    have g5 := h.cross x raw sp y hz
    unfold Keeps at g1 g2
    rw [hcnt] at g1 g2 g3 g4 g5
    rw [E_none (froz_trans hz)] at g1 g2 g5
    rw [E_none (by rw [(I.new x y (froz_new hz)).2.2.2.2.1]; rfl)] at g3 g4 g5
    split
    · have kne : ∀ i, i < size 5 raw → i ≠ j → upd (s.leaf x).b.klx (get 5 raw j) 0 (get 5 raw i) = (s.leaf x).b.klx (get 5 raw i) := by
        intro i hi hij
        exact upd_ne _ _ _ (get_ne hpo hi (by omega) hij)
      refine h.mid I (y := y) (ly := s.leaf y) (h' := .take lv raw sp y (j + 1)) hz rfl
        (lx := { s.leaf x with b := { (s.leaf x).b with
          klx := upd (s.leaf x).b.klx (get 5 raw j) 0, ksuf := upd (s.leaf x).b.ksuf (get 5 raw j) none } })
        (by rw [upd_id]) rfl rfl ?_ ?_ g3 g4 ?_
      · intro i hi hk
        have hk : i < sp ∨ j + 1 ≤ i := hk
        exact (g1 i hi (by omega)).to rfl (kne i hi (by omega)) (upd_ne _ _ _ (get_ne hpo hi (by omega) (by omega)))
      · intro i i' hlt hi hk hk'
        have hk : i < sp ∨ j + 1 ≤ i := hk
        have hk' : i' < sp ∨ j + 1 ≤ i' := hk'
        show ¬ (_ ∧ cls (upd _ _ _ _) = cls (upd _ _ _ _))
        rw [kne i (by omega) (by omega), kne i' hi (by omega)]
        exact g2 i i' hlt hi (by omega) (by omega)
      · intro u i hu hi1 hi
        have hi1 : j + 1 ≤ i := hi1
        show ¬ (_ ∧ _ = cls (upd _ _ _ _))
        rw [kne i hi (by omega)]
        exact g5 u i hu (by omega) hi
    · exact keep _ (.take lv raw sp y (j + 1)) (fun _ => rfl) rfl (froz_trans hz) rfl hz.symm hcnt.symm
  case h_3 lv raw sp y e =>
    exact h.unfreeze I e rfl rfl rfl rfl rfl rfl rfl rfl rfl rfl rfl rfl
  case h_4 lv y e =>
    refine keep _ (.setNext lv y) ?_ rfl (by rw [e]; rfl) rfl (by rw [e]; rfl) (by rw [e]; rfl)
    intro z; show (upd s.leaf _ _ z).b = _; rw [upd_if]; split
    · rename_i ez; rw [ez]
    · rfl
  case h_5 lv y e =>
    refine keep _ (.publish lv y) ?_ rfl (by rw [e]; rfl) rfl (by rw [e]; rfl) (by rw [e]; rfl)
    intro z; show (upd s.leaf _ _ z).b = _; rw [upd_if]; split
    · rename_i ez; rw [ez]
    · rfl
  case h_6 lv y e =>
    refine keep _ (.unlock lv) ?_ rfl (by rw [e]; rfl) rfl (by rw [e]; rfl) (by rw [e]; rfl)
    intro z; show (upd s.leaf _ _ z).b = _; rw [upd_if]; split
    · rename_i ez; rw [ez]
    · rfl
  case h_7 lv e =>
    refine keep _ .free ?_ rfl (by rw [e]; rfl) rfl (by rw [e]; rfl) (by rw [e]; rfl)
    intro z; show (upd s.leaf _ _ z).b = _; rw [upd_if]; split
    · rename_i ez; rw [ez]
    · rfl
  case h_8 lv t q st e =>
    have hc := hcv x lv t q st e
    exact h.conv I (.inr ⟨e, hc⟩) rfl rfl
  case h_9 => exact h

theorem Tidy.act {s : St V} (I : Inv s) (hcv : ConvOk s) (h : Tidy s) (f : Bool) (a : Act V) : Tidy (act f s a) := by
  have keep : ∀ (s' : St V) (x : Nat) (h' : HPc), (∀ z, (s'.leaf z).b = (s.leaf z).b) → s'.hold = upd s.hold x h' →
      (s.hold x).trans = none → h'.trans = none →
      h'.froz = (s.hold x).froz → h'.cnt = (s.hold x).cnt → Tidy s' := by
    intro s' x h' hb hh t1 t2 h1 h2
    refine h.frame ?_ ?_
    · intro z
      unfold E
      rw [hb, hh, upd_if]
      split
      · rename_i e; subst e; rw [eff_none t1, eff_none t2]
      · rfl
    · intro z
      rw [hh, upd_if]
      split
      · rename_i e; subst e; exact ⟨h1, h2⟩
      · exact ⟨rfl, rfl⟩
  have hw : ∀ (x : Nat) (l : LeafSt V), l.b = (s.leaf x).b → ∀ z, (upd s.leaf x l z).b = (s.leaf z).b := by
    intro x l hl z
    rw [upd_if]; split
    · rename_i ez; rw [ez]; exact hl
    · rfl
  cases a with
  | lock x =>
    unfold Chain.act; simp only; split
    · rename_i hc
      have hd : NV.isDirty (s.leaf x).word = false := by
        cases hd : NV.isDirty (s.leaf x).word with
        | false => rfl
        | true => rw [not_lockable hd] at hc; cases hc.2
      have hf := I.free_of_clean hd
      exact keep _ x (.locked _) (hw x _ rfl) rfl (by rw [hf]; rfl) rfl (by rw [hf]; rfl) (by rw [hf]; rfl)
    · exact h
  | write x t ik kl c sf =>
    unfold Chain.act; simp only; split
    · rename_i lv e
      split
      · rename_i hf
        rw [freeSlot_iff] at hf
        have hl := I.own x (by rw [e]; simp) (by rw [e]; simp)
        have hn : (s.hold x).froz = none := by rw [e]; rfl
        have ne : ∀ j, j < size 5 (s.leaf x).b.perm → get 5 (s.leaf x).b.perm j ≠ t := fun j hj e => hf ⟨j, hj, e⟩
        have htr : (s.hold x).trans = none := by rw [e]; rfl
        have g1 := h.good x hn
        have g2 := h.pairs x hn
        rw [E_none htr] at g1 g2
        refine h.body1 I (x := x) hl hn htr rfl rfl ?_ ?_
        · intro j hj
          have n1 := ne j hj
          exact (g1 j hj).to (upd_ne _ _ _ n1) (upd_ne _ _ _ n1) (upd_ne _ _ _ n1)
        · intro i j hij hj
          have hj : j < size 5 (s.leaf x).b.perm := hj
          have := g2 i j hij hj
          have n1 := ne j hj
          have n2 := ne i (by omega)
          unfold Twin at this ⊢
          show ¬ (upd _ t _ (get 5 (s.leaf x).b.perm i) = upd _ t _ (get 5 (s.leaf x).b.perm j) ∧
            cls (upd _ t _ (get 5 (s.leaf x).b.perm i)) = cls (upd _ t _ (get 5 (s.leaf x).b.perm j)))
          rw [upd_ne _ _ _ n1, upd_ne _ _ _ n1, upd_ne _ _ _ n2, upd_ne _ _ _ n2]; exact this
      · exact h
    · exact h
  | publish x pos off =>
    unfold Chain.act; simp only; split
    · rename_i lv e
      split
      · rename_i hc
        obtain ⟨hpos, hoff, hfit⟩ := hc
        have hl := I.own x (by rw [e]; simp) (by rw [e]; simp)
        have hfz : (s.hold x).froz = none := by rw [e]; rfl
        have hn : (s.hold x).new = none := by rw [e]; rfl
        have hs := I.still hn hl
        have hy : (⟨⟨0, 0⟩, 0#32, (s.leaf x).b.perm, pos, off⟩ : Try).Ok := ⟨hs.1, hpos, hoff⟩
        have hg := get_newPerm hy
        unfold fits at hfit
        have hfit := of_decide_eq_true hfit
        revert hg hfit
        generalize hyy : (⟨⟨0, 0⟩, 0#32, (s.leaf x).b.perm, pos, off⟩ : Try) = y
        have hyp : y.p = (s.leaf x).b.perm := by rw [← hyy]
        have hypos : y.pos = pos := by rw [← hyy]
        rw [hyp, hypos]
        rintro ⟨hsz, hg⟩ ⟨-, -, hf3, -, -, hf4, hf5⟩
        have htr : (s.hold x).trans = none := by rw [e]; rfl
        have g1 := h.good x hfz
        have g2 := h.pairs x hfz
        rw [E_none htr] at g1 g2
        have hv : Good (s.leaf x).b y.slot := by
          refine .inl ⟨?_, hf5⟩
          cases hcell : (s.leaf x).b.cell y.slot with
          | val v => exact ⟨v, rfl⟩
          | null => rw [hcell] at hf4; cases hf4
          | layer q => rw [hcell] at hf4; cases hf4
        refine h.body1 I (x := x) hl hfz htr rfl rfl ?_ ?_
        · intro j hj
          have hj : j < size 5 y.newPerm := hj
          rw [hsz] at hj
          show Good (s.leaf x).b (get 5 y.newPerm j)
          rw [hg j (by omega)]
          split
          · exact g1 j (by omega)
          · split
            · exact hv
            · exact g1 (j - 1) (by omega)
        · intro i j hij hj
          have hj : j < size 5 y.newPerm := hj
          rw [hsz] at hj
          show ¬ Twin (s.leaf x).b (get 5 y.newPerm i) (s.leaf x).b (get 5 y.newPerm j)
          rw [hg i (by omega), hg j (by omega)]
          by_cases h1 : j < pos
          · rw [if_pos h1, if_pos (by omega)]; exact g2 i j hij (by omega)
          · rw [if_neg h1]
            by_cases h2 : j = pos
            · rw [if_pos h2, if_pos (by omega)]; exact hf3 i (by omega)
            · rw [if_neg h2]
              by_cases h3 : i < pos
              · rw [if_pos h3]; exact g2 i (j - 1) (by omega) (by omega)
              · rw [if_neg h3]
                by_cases h4 : i = pos
                · rw [if_pos h4]
                  intro ht
                  exact hf3 (j - 1) (by omega) ⟨ht.1.symm, ht.2.symm⟩
                · rw [if_neg h4]; exact g2 (i - 1) (j - 1) (by omega) (by omega)
      · exact h
    · exact h
  | update x t v =>
    unfold Chain.act; simp only; split
    · rename_i lv w e e'
      have hl := I.own x (by rw [e]; simp) (by rw [e]; simp)
      have hfz : (s.hold x).froz = none := by rw [e]; rfl
      have htr : (s.hold x).trans = none := by rw [e]; rfl
      have g1 := h.good x hfz
      have g2 := h.pairs x hfz
      rw [E_none htr] at g1 g2
      refine h.body1 I (x := x) hl hfz htr rfl rfl ?_ ?_
      · intro j hj
        have gj := g1 j hj
        by_cases et : get 5 (s.leaf x).b.perm j = t
        · rcases gj with ⟨_, hk⟩ | ⟨⟨q, hq⟩, _⟩
          · exact .inl ⟨⟨v, by rw [et]; exact upd_same _ _ _⟩, hk⟩
          · rw [et, e'] at hq; cases hq
        · exact gj.to (upd_ne _ _ _ et) rfl rfl
      · exact g2
    · exact h
  | convert x t q =>
    unfold Chain.act; simp only; split
    · rename_i lv e
      split
      · rename_i hg
        exact h.conv I (.inl ⟨e, rfl, hg.2⟩) rfl rfl
      · exact h
    · exact h
  | giveUp x =>
    unfold Chain.act; simp only; split
    · rename_i lv e
      exact keep _ x (.unlock lv) (fun _ => rfl) rfl (by rw [e]; rfl) rfl (by rw [e]; rfl) (by rw [e]; rfl)
    · exact h
  | markSplit x =>
    unfold Chain.act; simp only; split
    · rename_i lv e
      exact keep _ x (.marked _) (hw x _ rfl) rfl (by rw [e]; rfl) rfl (by rw [e]; rfl) (by rw [e]; rfl)
    · exact h
  | freeze x sp y =>
    unfold Chain.act; simp only; split
    · rename_i lv e
      split
      · rename_i hc
        exact h.freeze I e hc.2.2.2.1 rfl rfl rfl rfl rfl rfl (by show size 5 (Verif.Perm.initial 128 5 24) = 0; exact size_initial)
      · exact h
    · exact h
  | hold x => exact h.hstep I hcv x
  | release y =>
    unfold Chain.act; simp only; split
    · rename_i e
      split
      · exact keep _ y .free (hw y _ rfl) rfl (by rw [e]; rfl) rfl (by rw [e]; rfl) (by rw [e]; rfl)
      · exact h
    · exact h
  | start i x k =>
    unfold Chain.act; simp only; split
    · split
      · exact h.frame (fun _ => rfl) fun _ => ⟨rfl, rfl⟩
      · exact h
    · split
      · exact h.frame (fun _ => rfl) fun _ => ⟨rfl, rfl⟩
      · exact h
    · exact h
  | read i => exact h.frame (fun _ => rfl) fun _ => ⟨rfl, rfl⟩

theorem Exec.tidy {f : Bool} {σ : Nat → St V} (h : Exec f σ) (n : Nat) : Tidy (σ n) := by
  induction n with
  | zero =>
    have hE : ∀ x, E (σ 0) x = ((σ 0).leaf x).b := fun x => E_none (by rw [h.1.hold x]; rfl)
    have hs : ∀ x, x ≠ 1 → size 5 ((σ 0).leaf x).b.perm = 0 := fun x e => by rw [h.1.perms x e, size_initial]
    constructor
    · intro x _ j hj; rw [hE] at hj ⊢
      by_cases e : x = 1
      · subst e; exact h.1.slots j hj
      · rw [hs x e] at hj; omega
    · intro x _ i j hij hj; rw [hE] at hj ⊢
      by_cases e : x = 1
      · subst e; exact h.1.apart i j hij hj
      · rw [hs x e] at hj; omega
    all_goals (intro x _ _ _ e; rw [h.1.hold x] at e; cases e)
  | succ n ih =>
    rcases h.2 n with e | ⟨a, e⟩
    · rw [e]; exact ih
    · rw [e]; exact ih.act (h.inv n) (h.convOk n) f a

end Verif.Chain
