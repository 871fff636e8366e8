import Verif.Proof.ChainRaceStep
set_option linter.unusedSimpArgs false
set_option linter.unusedVariables false
/-!
# Where a key is while leaves are split
-/
namespace Verif.Chain
open Verif.Internode (upd upd_same upd_ne)
open Verif.Perm (size get makeSorted24 setSize params24)
open Verif.Tree (PermOK permOK_insert permOK_setSize permOK_initial size_initial permOK_makeSorted size_makeSorted
  get_makeSorted Leaf Cell)
open Verif.Cas (In locked_bits dirty_split not_lockable Try in_newPerm)
open Verif.Race (SlotIs SlotLeads)
variable {V : Type}

/-- Slot `t` holds the key `k`: with a value, or (`φ`) as a sublayer. -/
def Has (φ : Bool) (b : Leaf V) (t : Nat) (k : Key) : Prop :=
  match φ with
  | false => SlotIs b t k ∧ ∃ v, b.cell t = .val v
  | true => SlotLeads b t k ∧ ∃ q, b.cell t = .layer q

variable {φ : Bool}

theorem Has.ikey {b : Leaf V} {t : Nat} {k : Key} (h : Has φ b t k) : b.ikey t = k.ikey := by
  cases φ
  · exact h.1.1
  · exact h.1.1

theorem Has.cell {b : Leaf V} {t : Nat} {k : Key} (h : Has φ b t k) : b.cell t ≠ .null := by
  intro e
  cases φ
  · obtain ⟨_, v, h⟩ := h; rw [e] at h; cases h
  · obtain ⟨_, v, h⟩ := h; rw [e] at h; cases h

theorem Has.congr {b b' : Leaf V} {t t' : Nat} {k : Key} (h1 : b'.ikey t' = b.ikey t) (h2 : b'.klx t' = b.klx t)
    (h3 : b'.ksuf t' = b.ksuf t) (h4 : b'.cell t' = b.cell t) : Has φ b' t' k ↔ Has φ b t k := by
  unfold Has SlotIs SlotLeads
  rw [h1, h2, h3, h4]

/-- Slot `t` of leaf `x` holds `k`, and is in the permutation in force. -/
def Here (φ : Bool) (s : St V) (x t : Nat) (k : Key) : Prop := In (cur (s.leaf x).b (s.hold x)) t ∧ Has φ (s.leaf x).b t k

/-- The right sibling of `x` begins at or before slice `n`. -/
def Pass (s : St V) (x n : Nat) : Prop := (s.leaf x).nx ≠ 0 ∧ (s.leaf (s.leaf x).nx).lo ≤ n

/-- The split of `x` has copied `k` to the new leaf. -/
def Moved (φ : Bool) (s : St V) (x : Nat) (k : Key) : Prop :=
  ∃ y u, (s.hold x).new = some y ∧ (s.leaf y).lo ≤ k.ikey ∧ Has φ (s.leaf y).b u k ∧
    (∀ raw sp w, (s.hold x).froz = some (raw, sp, w) → u < (s.hold x).cnt - sp) ∧
    ((s.hold x).froz = none → In (s.leaf y).b.perm u)

/-- From every leaf at or before `k` one step leads nearer to `k`. -/
def JK (φ : Bool) (s : St V) (k : Key) : Prop :=
  ∀ x, s.live x = true → (s.leaf x).lo ≤ k.ikey → (∃ t, Here φ s x t k) ∨ Pass s x k.ikey ∨ Moved φ s x k

/-- What a step does to the position of `k`. -/
structure Eff (φ : Bool) (s s' : St V) (k : Key) : Prop where
  live : ∀ x, s.live x = true → s'.live x = true
  lo : ∀ x, s.live x = true → (s'.leaf x).lo = (s.leaf x).lo
  pass : ∀ x n, s.live x = true → Pass s x n → Pass s' x n
  grow : ∀ x t, s.live x = true → (s.leaf x).lo ≤ k.ikey → Here φ s' x t k → Here φ s x t k
  jk : JK φ s' k

theorem Eff.refl {s : St V} {k : Key} (hj : JK φ s k) : Eff φ s s k :=
  ⟨fun _ h => h, fun _ _ => rfl, fun _ _ _ h => h, fun _ _ _ _ h => h, hj⟩

theorem Eff.of_rd {s s' : St V} {k : Key} (hj : JK φ s k) (h1 : s'.leaf = s.leaf) (h2 : s'.hold = s.hold)
    (h3 : s'.live = s.live) : Eff φ s s' k := by
  obtain ⟨l, hd, lv, u, r⟩ := s
  obtain ⟨l', hd', lv', u', r'⟩ := s'
  simp only at h1 h2 h3
  subst h1 h2 h3
  exact ⟨fun _ h => h, fun _ _ => rfl, fun _ _ _ h => h, fun _ _ _ _ h => h, hj⟩

theorem Eff.quiet {s s' : St V} {k : Key} (h : Inv s) (hj : JK φ s k) {x : Nat} {l : LeafSt V} {h' : HPc}
    (hleaf : s'.leaf = upd s.leaf x l) (hhold : s'.hold = upd s.hold x h') (hlive : s'.live = s.live)
    (hnx : l.nx = (s.leaf x).nx) (hlo : l.lo = (s.leaf x).lo)
    (hn : (s.hold x).new = none) (hn' : h'.new = none) (hnb : s.live x = true)
    (hh : (s.leaf x).lo ≤ k.ikey → ∀ t, (In l.b.perm t ∧ Has φ l.b t k) ↔ (In (s.leaf x).b.perm t ∧ Has φ (s.leaf x).b t k)) :
    Eff φ s s' k := by
  obtain ⟨hfz, hct⟩ := new_none hn
  obtain ⟨hfz', hct'⟩ := new_none hn'
  have hL : ∀ z, z ≠ x → s'.leaf z = s.leaf z := fun z hz => by rw [hleaf, upd_ne _ _ _ hz]
  have hH : ∀ z, z ≠ x → s'.hold z = s.hold z := fun z hz => by rw [hhold, upd_ne _ _ _ hz]
  have hLx : s'.leaf x = l := by rw [hleaf, upd_same]
  have hHx : s'.hold x = h' := by rw [hhold, upd_same]
  have hlo' : ∀ z, (s'.leaf z).lo = (s.leaf z).lo := by
    intro z; by_cases hz : z = x
    · subst hz; rw [hLx, hlo]
    · rw [hL z hz]
  have hnx' : ∀ z, (s'.leaf z).nx = (s.leaf z).nx := by
    intro z; by_cases hz : z = x
    · subst hz; rw [hLx, hnx]
    · rw [hL z hz]
  have hhere : ∀ z t, (s.leaf z).lo ≤ k.ikey → (Here φ s' z t k ↔ Here φ s z t k) := by
    intro z t hz
    unfold Here
    by_cases e : z = x
    · subst e; rw [hLx, hHx, cur_none hfz', cur_none hfz]; exact hh hz t
    · rw [hL z e, hH z e]
  have hpass : ∀ z n, Pass s z n → Pass s' z n := by
    intro z n hp; unfold Pass; rw [hnx', hlo']; exact hp
  refine ⟨by rw [hlive]; exact fun _ h => h, fun z _ => hlo' z, fun z n _ => hpass z n,
    fun z t _ hz => (hhere z t hz).mp, ?_⟩
  intro z hl hz
  rw [hlive] at hl; rw [hlo'] at hz
  rcases hj z hl hz with ⟨t, ht⟩ | hp | ⟨y, u, hy, hm⟩
  · exact .inl ⟨t, (hhere z t hz).mpr ht⟩
  · exact .inr (.inl (hpass z _ hp))
  · have e : z ≠ x := by rintro rfl; rw [hn] at hy; cases hy
    have hyx : y ≠ x := by
      rintro rfl
      have := (h.new z y hy).2.2.1; rw [hnb] at this; cases this
    refine .inr (.inr ⟨y, u, by rw [hH z e]; exact hy, ?_⟩)
    rw [hL y hyx, hH z e]; exact hm

theorem Eff.mid {s s' : St V} {k : Key} (h : Inv s) (hj : JK φ s k) {x y sp : Nat} {raw : BitVec 128} {lx ly : LeafSt V}
    {h' : HPc} (hz : (s.hold x).froz = some (raw, sp, y)) (hz' : h'.froz = some (raw, sp, y))
    (hleaf : s'.leaf = upd (upd s.leaf y ly) x lx) (hhold : s'.hold = upd s.hold x h') (hlive : s'.live = s.live)
    (xn : lx.nx = (s.leaf x).nx) (xl : lx.lo = (s.leaf x).lo)
    (yn : ly.nx = (s.leaf y).nx) (yl : ly.lo = (s.leaf y).lo)
    (hgrow : ∀ t, Has φ lx.b t k → Has φ (s.leaf x).b t k)
    (hkeep : ∀ t, In raw t → Has φ (s.leaf x).b t k → Has φ lx.b t k ∨
      ∃ u, (s.leaf y).lo ≤ k.ikey ∧ u < h'.cnt - sp ∧ Has φ ly.b u k)
    (hmv : ∀ u, u < (s.hold x).cnt - sp → Has φ (s.leaf y).b u k → u < h'.cnt - sp ∧ Has φ ly.b u k) : Eff φ s s' k := by
  have hnew := h.new x y (froz_new hz)
  have hyx : y ≠ x := by
    rintro rfl
    have := hnew.1; rw [hnew.2.2.1] at this; cases this
  have hL : ∀ z, z ≠ x → z ≠ y → s'.leaf z = s.leaf z := fun z hz hzy => by
    rw [hleaf, upd_ne _ _ _ hz, upd_ne _ _ _ hzy]
  have hLx : s'.leaf x = lx := by rw [hleaf, upd_same]
  have hLy : s'.leaf y = ly := by rw [hleaf, upd_ne _ _ _ hyx, upd_same]
  have hH : ∀ z, z ≠ x → s'.hold z = s.hold z := fun z hz => by rw [hhold, upd_ne _ _ _ hz]
  have hHx : s'.hold x = h' := by rw [hhold, upd_same]
  have hlo' : ∀ z, (s'.leaf z).lo = (s.leaf z).lo := by
    intro z; by_cases e : z = x
    · subst e; rw [hLx, xl]
    · by_cases e' : z = y
      · subst e'; rw [hLy, yl]
      · rw [hL z e e']
  have hnx' : ∀ z, (s'.leaf z).nx = (s.leaf z).nx := by
    intro z; by_cases e : z = x
    · subst e; rw [hLx, xn]
    · by_cases e' : z = y
      · subst e'; rw [hLy, yn]
      · rw [hL z e e']
  have hny : ∀ z, s.live z = true → z ≠ y := by rintro z e rfl; rw [hnew.2.2.1] at e; cases e
  have hpass : ∀ z n, Pass s z n → Pass s' z n := by
    intro z n hp; unfold Pass; rw [hnx', hlo']; exact hp
  refine ⟨by rw [hlive]; exact fun _ h => h, fun z _ => hlo' z, fun z n _ => hpass z n, ?_, ?_⟩
  · intro z t hl hlz hh
    unfold Here at hh ⊢
    by_cases e : z = x
    · subst e
      rw [hLx, hHx, cur_some hz'] at hh
      rw [cur_some hz]; exact ⟨hh.1, hgrow t hh.2⟩
    · rw [hL z e (hny z hl), hH z e] at hh; exact hh
  · intro z hl hlz
    rw [hlive] at hl; rw [hlo'] at hlz
    by_cases e : z = x
    · subst e
      have mv : ∀ u, (s.leaf y).lo ≤ k.ikey → u < h'.cnt - sp → Has φ ly.b u k → Moved φ s' z k := by
        intro u h1 h2 h3
        refine ⟨y, u, by rw [hHx]; exact froz_new hz', by rw [hlo']; exact h1, by rw [hLy]; exact h3, ?_, ?_⟩
        · intro raw1 sp1 w e; rw [hHx, hz'] at e; cases e; rw [hHx]; exact h2
        · intro e; rw [hHx, hz'] at e; cases e
      rcases hj z hl hlz with ⟨t, ht⟩ | hp | ⟨y1, u, hy, h1, h2, h3, h4⟩
      · unfold Here at ht
        rw [cur_some hz] at ht
        rcases hkeep t ht.1 ht.2 with hk | ⟨u, h1, h2, h3⟩
        · refine .inl ⟨t, ?_⟩
          unfold Here
          rw [hLx, hHx, cur_some hz']; exact ⟨ht.1, hk⟩
        · exact .inr (.inr (mv u h1 h2 h3))
      · exact .inr (.inl (hpass z _ hp))
      · rw [froz_new hz] at hy; cases hy
        have := hmv u (h3 _ _ _ hz) h2
        exact .inr (.inr (mv u h1 this.1 this.2))
    · rcases hj z hl hlz with ⟨t, ht⟩ | hp | ⟨y1, u, hy, h1, h2, h3, h4⟩
      · refine .inl ⟨t, ?_⟩
        unfold Here at ht ⊢
        rw [hL z e (hny z hl), hH z e]; exact ht
      · exact .inr (.inl (hpass z _ hp))
      · have hy1 : y1 ≠ y := by
          rintro rfl; exact e (h.uniq z x y1 hy (froz_new hz))
        have hy1x : y1 ≠ x := by
          rintro rfl
          have h2 := (h.new z y1 hy).2.2.1; rw [hnew.1] at h2; cases h2
        refine .inr (.inr ⟨y1, u, by rw [hH z e]; exact hy, ?_⟩)
        rw [hL y1 hy1x hy1, hH z e]; exact ⟨h1, h2, h3, h4⟩

theorem Eff.freeze {s s' : St V} {k : Key} (h : Inv s) (hj : JK φ s k) {x y sp : Nat} {raw : BitVec 128} {lv : NV.W}
    {lx ly : LeafSt V} (hx : s.hold x = .marked lv) (hp : (s.leaf x).b.perm = raw) (hu : s.used y = false)
    (hleaf : s'.leaf = upd (upd s.leaf y ly) x lx) (hhold : s'.hold = upd (upd s.hold y .newborn) x (.take lv raw sp y sp))
    (hlive : s'.live = s.live)
    (xb : ∀ t, Has φ lx.b t k ↔ Has φ (s.leaf x).b t k)
    (xn : lx.nx = (s.leaf x).nx) (xl : lx.lo = (s.leaf x).lo) : Eff φ s s' k := by
  have hxl : s.live x = true := h.own x (by rw [hx]; simp) (by rw [hx]; simp)
  have hyl : s.live y = false := by
    cases e : s.live y with
    | false => rfl
    | true => rw [h.used y e] at hu; cases hu
  have hyx : y ≠ x := by rintro rfl; rw [hxl] at hyl; cases hyl
  have hL : ∀ z, z ≠ x → z ≠ y → s'.leaf z = s.leaf z := fun z hz hzy => by
    rw [hleaf, upd_ne _ _ _ hz, upd_ne _ _ _ hzy]
  have hLx : s'.leaf x = lx := by rw [hleaf, upd_same]
  have hH : ∀ z, z ≠ x → z ≠ y → s'.hold z = s.hold z := fun z hz hzy => by
    rw [hhold, upd_ne _ _ _ hz, upd_ne _ _ _ hzy]
  have hHx : s'.hold x = .take lv raw sp y sp := by rw [hhold, upd_same]
  have hlo' : ∀ z, z ≠ y → (s'.leaf z).lo = (s.leaf z).lo := by
    intro z e'; by_cases e : z = x
    · subst e; rw [hLx, xl]
    · rw [hL z e e']
  have hnx' : ∀ z, z ≠ y → (s'.leaf z).nx = (s.leaf z).nx := by
    intro z e'; by_cases e : z = x
    · subst e; rw [hLx, xn]
    · rw [hL z e e']
  have hny : ∀ z, s.live z = true → z ≠ y := by rintro z e rfl; rw [hyl] at e; cases e
  have hpass : ∀ z n, s.live z = true → Pass s z n → Pass s' z n := by
    intro z n hl hp
    unfold Pass; rw [hnx' z (hny z hl), hlo' _ (hny _ (h.link z hl hp.1).1)]; exact hp
  have hhere : ∀ z t, s.live z = true → (Here φ s' z t k ↔ Here φ s z t k) := by
    intro z t hl
    unfold Here
    by_cases e : z = x
    · subst e
      rw [hLx, hHx, hx]
      show In raw t ∧ _ ↔ In (s.leaf z).b.perm t ∧ _
      rw [hp, xb]
    · rw [hL z e (hny z hl), hH z e (hny z hl)]
  refine ⟨by rw [hlive]; exact fun _ h => h, fun z hl => hlo' z (hny z hl), hpass, fun z t hl _ => (hhere z t hl).mp, ?_⟩
  intro z hl hlz
  rw [hlive] at hl; rw [hlo' z (hny z hl)] at hlz
  rcases hj z hl hlz with ⟨t, ht⟩ | hp | ⟨y1, u, hy, hm⟩
  · exact .inl ⟨t, (hhere z t hl).mpr ht⟩
  · exact .inr (.inl (hpass z _ hl hp))
  · have e : z ≠ x := by rintro rfl; rw [hx] at hy; cases hy
    have hn := h.new z y1 hy
    have hy1x : y1 ≠ x := by
      rintro rfl
      have h2 := hn.2.2.1; rw [hxl] at h2; cases h2
    have hy1y : y1 ≠ y := by rintro rfl; have := hn.2.2.2.1; rw [hu] at this; cases this
    refine .inr (.inr ⟨y1, u, by rw [hH z e (hny z hl)]; exact hy, ?_⟩)
    rw [hL y1 hy1x hy1y, hH z e (hny z hl)]; exact hm

theorem Eff.unfreeze {s s' : St V} {k : Key} (h : Inv s) (hj : JK φ s k) {x y sp : Nat} {raw : BitVec 128} {lv : NV.W}
    {lx ly : LeafSt V} (hx : s.hold x = .unfreeze lv raw sp y)
    (hleaf : s'.leaf = upd (upd s.leaf y ly) x lx) (hhold : s'.hold = upd s.hold x (.mark lv y)) (hlive : s'.live = s.live)
    (xp : lx.b.perm = setSize 5 raw sp) (xb : ∀ t, Has φ lx.b t k ↔ Has φ (s.leaf x).b t k)
    (xn : lx.nx = (s.leaf x).nx) (xl : lx.lo = (s.leaf x).lo)
    (yp : ly.b.perm = makeSorted24 (size 5 raw - sp)) (yb : ∀ t, Has φ ly.b t k ↔ Has φ (s.leaf y).b t k)
    (yn : ly.nx = (s.leaf y).nx) (yl : ly.lo = (s.leaf y).lo) : Eff φ s s' k := by
  have hz : (s.hold x).froz = some (raw, sp, y) := by rw [hx]; rfl
  have hnew := h.new x y (froz_new hz)
  have hf := h.frozen x raw sp y hz
  obtain ⟨hf1, hpo, hsp0, hsp1, hlo1, hyp0, hc1, hc2, hcopy⟩ := hf
  have hg := h.gone x raw sp y hz
  have hcnt : (s.hold x).cnt = size 5 raw := by rw [hx]; rfl
  rw [hcnt] at hg
  have hsl := hpo.size_le
  have hyx : y ≠ x := by
    rintro rfl
    have := hnew.1; rw [hnew.2.2.1] at this; cases this
  have hL : ∀ z, z ≠ x → z ≠ y → s'.leaf z = s.leaf z := fun z hz hzy => by
    rw [hleaf, upd_ne _ _ _ hz, upd_ne _ _ _ hzy]
  have hLx : s'.leaf x = lx := by rw [hleaf, upd_same]
  have hLy : s'.leaf y = ly := by rw [hleaf, upd_ne _ _ _ hyx, upd_same]
  have hH : ∀ z, z ≠ x → s'.hold z = s.hold z := fun z hz => by rw [hhold, upd_ne _ _ _ hz]
  have hHx : s'.hold x = .mark lv y := by rw [hhold, upd_same]
  have hlo' : ∀ z, (s'.leaf z).lo = (s.leaf z).lo := by
    intro z; by_cases e : z = x
    · subst e; rw [hLx, xl]
    · by_cases e' : z = y
      · subst e'; rw [hLy, yl]
      · rw [hL z e e']
  have hnx' : ∀ z, (s'.leaf z).nx = (s.leaf z).nx := by
    intro z; by_cases e : z = x
    · subst e; rw [hLx, xn]
    · by_cases e' : z = y
      · subst e'; rw [hLy, yn]
      · rw [hL z e e']
  have hny : ∀ z, s.live z = true → z ≠ y := by rintro z e rfl; rw [hnew.2.2.1] at e; cases e
  have hpass : ∀ z n, Pass s z n → Pass s' z n := by
    intro z n hp; unfold Pass; rw [hnx', hlo']; exact hp
  have hin : ∀ t, In lx.b.perm t ↔ ∃ i, i < sp ∧ get 5 raw i = t := by
    intro t
    unfold In
    rw [xp, Verif.Perm.size_setSize params24 _ (by omega)]
    constructor
    · rintro ⟨i, hi, e⟩
      rw [Verif.Perm.get_setSize params24 _ (by omega) (by omega)] at e; exact ⟨i, hi, e⟩
    · rintro ⟨i, hi, e⟩
      exact ⟨i, hi, by rw [Verif.Perm.get_setSize params24 _ (by omega) (by omega)]; exact e⟩
  have hhere : ∀ z t, s.live z = true → (Here φ s' z t k ↔ Here φ s z t k) := by
    intro z t hl
    unfold Here
    by_cases e : z = x
    · subst e
      rw [hLx, hHx, cur_some hz]
      show In lx.b.perm t ∧ _ ↔ _
      rw [hin, xb]
      constructor
      · rintro ⟨⟨i, hi, e⟩, hb⟩; exact ⟨⟨i, by omega, e⟩, hb⟩
      · rintro ⟨⟨i, hi, e⟩, hb⟩
        refine ⟨⟨i, ?_, e⟩, hb⟩
        by_contra hc
        exact hb.cell (by rw [← e, hg i (by omega) hi])
    · rw [hL z e (hny z hl), hH z e]
  refine ⟨by rw [hlive]; exact fun _ h => h, fun z hl => hlo' z, fun z n _ => hpass z n,
    fun z t hl _ => (hhere z t hl).mp, ?_⟩
  intro z hl hlz
  rw [hlive] at hl; rw [hlo'] at hlz
  rcases hj z hl hlz with ⟨t, ht⟩ | hp | ⟨y1, u, hy, h1, h2, h3, h4⟩
  · exact .inl ⟨t, (hhere z t hl).mpr ht⟩
  · exact .inr (.inl (hpass z _ hp))
  · by_cases e : z = x
    · subst e
      rw [froz_new hz] at hy; cases hy
      have hu := h3 _ _ _ hz
      rw [hcnt] at hu
      refine .inr (.inr ⟨y, u, by rw [hHx]; rfl, by rw [hlo']; exact h1, by rw [hLy]; exact (yb u).mpr h2, ?_, ?_⟩)
      · intro _ _ _ e; rw [hHx] at e; cases e
      · intro _
        rw [hLy, yp]
        exact ⟨u, by rw [size_makeSorted _ (by omega)]; exact hu, get_makeSorted _ (by omega) u hu⟩
    · have hy1 : y1 ≠ y := by
        rintro rfl; exact e (h.uniq z x y1 hy (froz_new hz))
      have hy1x : y1 ≠ x := by
        rintro rfl
        have h2 := (h.new z y1 hy).2.2.1; rw [hnew.1] at h2; cases h2
      refine .inr (.inr ⟨y1, u, by rw [hH z e]; exact hy, ?_⟩)
      rw [hL y1 hy1x hy1, hH z e]; exact ⟨h1, h2, h3, h4⟩

theorem Eff.cutStep {s s' : St V} {k : Key} (h : Inv s) (hj : JK φ s k) {x y : Nat} {lx ly : LeafSt V} {h' : HPc}
    (hx : (s.hold x).cut = some y) (hx' : h'.cut = some y)
    (hleaf : s'.leaf = upd (upd s.leaf y ly) x lx) (hhold : s'.hold = upd s.hold x h') (hlive : s'.live = s.live)
    (xb : lx.b = (s.leaf x).b) (xn : lx.nx = (s.leaf x).nx) (xl : lx.lo = (s.leaf x).lo)
    (yb : ly.b = (s.leaf y).b) (yl : ly.lo = (s.leaf y).lo) : Eff φ s s' k := by
  have hnew := h.new x y (cut_new hx)
  have hyx : y ≠ x := by
    rintro rfl
    have := hnew.1; rw [hnew.2.2.1] at this; cases this
  have hL : ∀ z, z ≠ x → z ≠ y → s'.leaf z = s.leaf z := fun z hz hzy => by
    rw [hleaf, upd_ne _ _ _ hz, upd_ne _ _ _ hzy]
  have hLx : s'.leaf x = lx := by rw [hleaf, upd_same]
  have hLy : s'.leaf y = ly := by rw [hleaf, upd_ne _ _ _ hyx, upd_same]
  have hH : ∀ z, z ≠ x → s'.hold z = s.hold z := fun z hz => by rw [hhold, upd_ne _ _ _ hz]
  have hHx : s'.hold x = h' := by rw [hhold, upd_same]
  have hlo' : ∀ z, (s'.leaf z).lo = (s.leaf z).lo := by
    intro z; by_cases e : z = x
    · subst e; rw [hLx, xl]
    · by_cases e' : z = y
      · subst e'; rw [hLy, yl]
      · rw [hL z e e']
  have hnx' : ∀ z, z ≠ y → (s'.leaf z).nx = (s.leaf z).nx := by
    intro z e'; by_cases e : z = x
    · subst e; rw [hLx, xn]
    · rw [hL z e e']
  have hb : ∀ z, (s'.leaf z).b = (s.leaf z).b := by
    intro z; by_cases e : z = x
    · subst e; rw [hLx, xb]
    · by_cases e' : z = y
      · subst e'; rw [hLy, yb]
      · rw [hL z e e']
  have hfr : ∀ z, (s'.hold z).froz = (s.hold z).froz := by
    intro z; by_cases e : z = x
    · subst e; rw [hHx, cut_froz hx, cut_froz hx']
    · rw [hH z e]
  have hcur : ∀ z, cur (s'.leaf z).b (s'.hold z) = cur (s.leaf z).b (s.hold z) := by
    intro z; unfold cur; rw [hfr, hb]
  have hnw : ∀ q, (s'.hold q).new = (s.hold q).new := by
    intro q; by_cases hq : q = x
    · subst hq; rw [hHx, cut_new hx, cut_new hx']
    · rw [hH q hq]
  have hny : ∀ z, s.live z = true → z ≠ y := by rintro z e rfl; rw [hnew.2.2.1] at e; cases e
  have hhere : ∀ z t, Here φ s' z t k ↔ Here φ s z t k := by
    intro z t; unfold Here; rw [hcur, hb]
  have hpass : ∀ z n, s.live z = true → Pass s z n → Pass s' z n := by
    intro z n hl hp; unfold Pass; rw [hnx' z (hny z hl), hlo']; exact hp
  refine ⟨by rw [hlive]; exact fun _ h => h, fun z hl => hlo' z, hpass, fun z t hl _ => (hhere z t).mp, ?_⟩
  intro z hl hlz
  rw [hlive] at hl; rw [hlo'] at hlz
  rcases hj z hl hlz with ⟨t, ht⟩ | hp | ⟨y1, u, hy, h1, h2, h3, h4⟩
  · exact .inl ⟨t, (hhere z t).mpr ht⟩
  · exact .inr (.inl (hpass z _ hl hp))
  · refine .inr (.inr ⟨y1, u, by rw [hnw]; exact hy, by rw [hlo']; exact h1, by rw [hb]; exact h2, ?_, by rw [hfr, hb]; exact h4⟩)
    intro raw sp w e
    rw [hfr] at e
    have ex : z ≠ x := by rintro rfl; rw [cut_froz hx] at e; cases e
    rw [hH z ex]; exact h3 _ _ _ e

theorem Eff.link {s s' : St V} {k : Key} (h : Inv s) (hj : JK φ s k) {x y : Nat} {lv : NV.W} {lx : LeafSt V}
    (hx : s.hold x = .publish lv y)
    (hleaf : s'.leaf = upd s.leaf x lx) (hhold : s'.hold = upd s.hold x (.unlock lv)) (hlive : s'.live = upd s.live y true)
    (xb : lx.b = (s.leaf x).b) (xn : lx.nx = y) (xl : lx.lo = (s.leaf x).lo) : Eff φ s s' k := by
  have hcx : (s.hold x).cut = some y := by rw [hx]; rfl
  have hnew := h.new x y (cut_new hcx)
  have hcut := h.cut x y hcx
  have hset := h.set x lv y hx
  obtain ⟨hxl, hy0, hyl, hyu, hyh, hlt, hhi⟩ := hnew
  have hyx : y ≠ x := by rintro rfl; rw [hxl] at hyl; cases hyl
  have hL : ∀ z, z ≠ x → s'.leaf z = s.leaf z := fun z hz => by rw [hleaf, upd_ne _ _ _ hz]
  have hLx : s'.leaf x = lx := by rw [hleaf, upd_same]
  have hH : ∀ z, z ≠ x → s'.hold z = s.hold z := fun z hz => by rw [hhold, upd_ne _ _ _ hz]
  have hHx : s'.hold x = .unlock lv := by rw [hhold, upd_same]
  have hlo' : ∀ z, (s'.leaf z).lo = (s.leaf z).lo := by
    intro z; by_cases e : z = x
    · subst e; rw [hLx, xl]
    · rw [hL z e]
  have hb : ∀ z, (s'.leaf z).b = (s.leaf z).b := by
    intro z; by_cases e : z = x
    · subst e; rw [hLx, xb]
    · rw [hL z e]
  have hfr : ∀ z, (s'.hold z).froz = (s.hold z).froz := by
    intro z; by_cases e : z = x
    · subst e; rw [hHx, hx]; rfl
    · rw [hH z e]
  have hcur : ∀ z, cur (s'.leaf z).b (s'.hold z) = cur (s.leaf z).b (s.hold z) := by
    intro z; unfold cur; rw [hfr, hb]
  have hhere : ∀ z t, Here φ s' z t k ↔ Here φ s z t k := by
    intro z t; unfold Here; rw [hcur, hb]
  have hpass : ∀ z n, s.live z = true → Pass s z n → Pass s' z n := by
    intro z n hl hp
    unfold Pass
    rw [hlo']
    by_cases e : z = x
    · subst e
      rw [hLx, xn]
      have := hhi hp.1
      have := hp.2
      exact ⟨hy0, by omega⟩
    · rw [hL z e]; exact hp
  refine ⟨?_, fun z _ => hlo' z, hpass, fun z t _ _ => (hhere z t).mp, ?_⟩
  · intro z hl; rw [hlive]
    by_cases e : z = y
    · subst e; rw [upd_same]
    · rw [upd_ne _ _ _ e]; exact hl
  · intro z hl hlz
    rw [hlo'] at hlz
    by_cases ey : z = y
    · subst ey
      rcases hj x hxl (by omega) with ⟨t, ht⟩ | hp | ⟨y1, u, hy, h1, h2, h3, h4⟩
      · exfalso
        unfold Here at ht
        rw [hx] at ht
        obtain ⟨⟨i, hi, e⟩, hb1⟩ := ht
        have hi : i < size 5 (s.leaf x).b.perm := hi
        have e : get 5 (s.leaf x).b.perm i = t := e
        have := hcut.1 i hi
        rw [e, hb1.ikey] at this
        omega
      · refine .inr (.inl ?_)
        unfold Pass
        rw [hlo', hL z hyx, hset]
        exact ⟨hp.1, hp.2⟩
      · rw [cut_new hcx] at hy; cases hy
        refine .inl ⟨u, (hhere _ _).mpr ?_⟩
        unfold Here
        rw [hyh]
        exact ⟨h4 (cut_froz hcx), h2⟩
    · rw [hlive, upd_ne _ _ _ ey] at hl
      rcases hj z hl hlz with ⟨t, ht⟩ | hp | ⟨y1, u, hy, h1, h2, h3, h4⟩
      · exact .inl ⟨t, (hhere z t).mpr ht⟩
      · exact .inr (.inl (hpass z _ hl hp))
      · by_cases e : z = x
        · subst e
          rw [cut_new hcx] at hy; cases hy
          refine .inr (.inl ?_)
          unfold Pass
          rw [hlo', hLx, xn]; exact ⟨hy0, h1⟩
        · refine .inr (.inr ⟨y1, u, by rw [hH z e]; exact hy, by rw [hlo']; exact h1, by rw [hb]; exact h2, ?_, by rw [hfr, hb]; exact h4⟩)
          rw [hH z e]; exact h3

end Verif.Chain
