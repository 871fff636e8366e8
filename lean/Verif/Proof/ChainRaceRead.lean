import Verif.Proof.ChainRaceKey
import Verif.Proof.ChainConv
set_option linter.unusedSimpArgs false
set_option linter.unusedVariables false
/-!
# Lookups do not lose a key that is being moved
-/
namespace Verif.Chain
open Verif.Internode (upd upd_same upd_ne)
open Verif.Perm (size get makeSorted24 setSize params24)
open Verif.Tree (PermOK Leaf Cell searchKlx ksufKeylenx layerKeylenx)
open Verif.Cas (In locked_bits dirty_split not_lockable Try in_newPerm not_frozen freeze_frozen)
open Verif.Race (SlotIs SlotLeads RPc Out rstep interp)
variable {V : Type} {φ : Bool}

theorem has_perm {b : Leaf V} {p : BitVec 128} {t : Nat} {k : Key} : Has φ { b with perm := p } t k ↔ Has φ b t k :=
  Has.congr rfl rfl rfl rfl

theorem Has.to {b b' : Leaf V} {t t' : Nat} {k : Key} (h : Has φ b t k) (h1 : b'.ikey t' = b.ikey t)
    (h2 : b'.klx t' = b.klx t) (h3 : b'.ksuf t' = b.ksuf t) (h4 : b'.cell t' = b.cell t) : Has φ b' t' k :=
  (Has.congr h1 h2 h3 h4).2 h

theorem klx_searchKlx {b : Leaf V} {t : Nat} {k : Key} (h : SlotIs b t k) : b.klx t = searchKlx k := by
  have := h.2
  unfold searchKlx
  split at this
  · rename_i hs; rw [if_pos hs]; exact this.1
  · rename_i hs; rw [if_neg hs]; exact this

theorem hasSuffix_of_searchKlx {k : Key} (h : searchKlx k = ksufKeylenx) : k.hasSuffix = true := by
  unfold searchKlx at h
  split at h
  · rename_i hs; exact hs
  · rename_i hs
    exfalso
    have : ¬ ikeySize < k.currentLen := by simpa [Key.hasSuffix] using hs
    have h : k.currentLen = 64 := h
    have h8 : ikeySize = 8 := rfl
    omega

theorem Eff.hstep {s : St V} {k : Key} (h : Inv s) (hc : ConvOk s) (hno : ¬ Converting s k) (hj : JK φ s k) (x : Nat) : Eff φ s (hstep s x) k := by
  unfold Chain.hstep
  split
  case h_1 lv raw sp y j e =>
    have hz : (s.hold x).froz = some (raw, sp, y) := by rw [e]; rfl
    have hf := h.frozen x raw sp y hz
    have hcnt : (s.hold x).cnt = j := by rw [e]; rfl
    obtain ⟨hf1, hpo, hsp0, hsp1, hlo1, hyp0, hc1, hc2, hcopy⟩ := hf
    rw [hcnt] at hc1 hc2 hcopy
    have hso := h.sorted x
    rw [cur_some hz] at hso
    split
    · rename_i hj'
      refine Eff.mid h hj (y := y) (raw := raw) (sp := sp) (h' := .clear lv raw sp y j) hz rfl rfl rfl rfl
        rfl rfl rfl rfl ?_ ?_ ?_
      · intro t hb
        have et : t ≠ get 5 raw j := by
          rintro rfl
          exact hb.cell (upd_same _ _ _)
        exact hb.to rfl rfl rfl (upd_ne _ _ _ et).symm
      · intro t ht hb
        by_cases et : t = get 5 raw j
        · refine .inr ⟨j - sp, ?_, by show j - sp < j + 1 - sp; omega, ?_⟩
          · rw [hlo1]
            have : k.ikey = (s.leaf x).b.ikey (get 5 raw j) := by rw [← hb.ikey, et]
            rw [this]
            by_cases h0 : sp = j
            · rw [h0]
            · exact hso sp j (by omega) hj'
          · subst et
            exact hb.to (upd_same _ _ _) (upd_same _ _ _) (upd_same _ _ _) (upd_same _ _ _)
        · exact .inl (hb.to rfl rfl rfl (upd_ne _ _ _ et))
      · intro u hu hb
        rw [hcnt] at hu
        have hne : u ≠ j - sp := by omega
        exact ⟨by show u < j + 1 - sp; omega, hb.to (upd_ne _ _ _ hne) (upd_ne _ _ _ hne) (upd_ne _ _ _ hne) (upd_ne _ _ _ hne)⟩
    · refine Eff.mid h hj (y := y) (raw := raw) (sp := sp) (lx := s.leaf x) (ly := s.leaf y) (h' := .unfreeze lv raw sp y)
        hz rfl (by rw [upd_id, upd_id]) rfl rfl rfl rfl rfl rfl (fun _ h => h) (fun _ _ h => .inl h) ?_
      intro u hu hb
      rw [hcnt] at hu
      exact ⟨by show u < size 5 raw - sp; omega, hb⟩
  case h_2 lv raw sp y j e =>
    have hz : (s.hold x).froz = some (raw, sp, y) := by rw [e]; rfl
    have hf := h.frozen x raw sp y hz
    have hcnt : (s.hold x).cnt = j + 1 := by rw [e]; rfl
    obtain ⟨hf1, hpo, hsp0, hsp1, hlo1, hyp0, hc1, hc2, hcopy⟩ := hf
    have hg := h.gone x raw sp y hz
    rw [hcnt] at hc1 hc2 hcopy hg
    have hcl : sp ≤ j → (s.leaf x).b.cell (get 5 raw j) = .null := fun hsj => hg j hsj (by omega)
    split
    · rename_i h64
      by_cases hsj : sp ≤ j
      · have hc0 := hcl hsj
        refine Eff.mid h hj (y := y) (raw := raw) (sp := sp) (ly := s.leaf y) (h' := .take lv raw sp y (j + 1)) hz rfl
          (lx := { s.leaf x with b := { (s.leaf x).b with
            klx := upd (s.leaf x).b.klx (get 5 raw j) 0, ksuf := upd (s.leaf x).b.ksuf (get 5 raw j) none } })
          (by rw [upd_id]) rfl rfl rfl rfl rfl rfl ?_ ?_ ?_
        · intro t hb
          have et : t ≠ get 5 raw j := by rintro rfl; exact hb.cell hc0
          exact hb.to rfl (upd_ne _ _ _ et).symm (upd_ne _ _ _ et).symm rfl
        · intro t ht hb
          have et : t ≠ get 5 raw j := by rintro rfl; exact hb.cell hc0
          exact .inl (hb.to rfl (upd_ne _ _ _ et) (upd_ne _ _ _ et) rfl)
        · intro u hu hb; rw [hcnt] at hu; exact ⟨hu, hb⟩
      · -- `j` is never below the split point
        exfalso
        have := h.jle x lv raw sp y j e
        omega
    · refine Eff.mid h hj (y := y) (raw := raw) (sp := sp) (lx := s.leaf x) (ly := s.leaf y) (h' := .take lv raw sp y (j + 1))
        hz rfl (by rw [upd_id, upd_id]) rfl rfl rfl rfl rfl rfl (fun _ h => h) (fun _ _ h => .inl h) ?_
      intro u hu hb; rw [hcnt] at hu; exact ⟨hu, hb⟩
  case h_3 lv raw sp y e =>
    exact Eff.unfreeze h hj e rfl rfl rfl rfl (fun _ => has_perm) rfl rfl rfl (fun _ => has_perm) rfl rfl
  case h_4 lv y e =>
    exact Eff.cutStep h hj (y := y) (lx := { s.leaf x with mark := true }) (ly := s.leaf y) (h' := .setNext lv y)
      (by rw [e]; rfl) rfl (by rw [upd_id]) rfl rfl rfl rfl rfl rfl rfl
  case h_5 lv y e =>
    have hc : (s.hold x).cut = some y := by rw [e]; rfl
    have hnew := h.new x y (cut_new hc)
    have hyx : y ≠ x := by
      rintro rfl
      have := hnew.1; rw [hnew.2.2.1] at this; cases this
    refine Eff.cutStep h hj (y := y) (lx := s.leaf x) (ly := { s.leaf y with nx := (s.leaf x).nx }) (h' := .publish lv y)
      hc rfl ?_ rfl rfl rfl rfl rfl rfl rfl
    funext z
    show upd s.leaf y _ z = _
    rw [upd_if, upd_if, upd_if]
    split
    · rename_i e; subst e; rw [if_neg hyx]
    · split
      · rename_i e; rw [e]
      · rfl
  case h_6 lv y e =>
    exact Eff.link h hj e rfl rfl rfl rfl rfl rfl
  case h_7 lv e =>
    have hl := h.own x (by rw [e]; simp) (by rw [e]; simp)
    have hn : (s.hold x).new = none := by rw [e]; rfl
    exact Eff.quiet h hj (l := { s.leaf x with word := NV.unlockOf lv }) (h' := .free) rfl rfl rfl rfl rfl hn rfl hl
      (fun _ _ => Iff.rfl)
  case h_8 lv t q st e =>
    have hl := h.own x (by rw [e]; simp) (by rw [e]; simp)
    have hn : (s.hold x).new = none := by rw [e]; rfl
    refine Eff.quiet h hj (l := { s.leaf x with b := convStore (s.leaf x).b t q st }) (h' := convNext lv t q st) rfl rfl rfl rfl
      rfl hn (convNext_new _ _ _ _) hl ?_
    intro _ t'
    show In (convStore (s.leaf x).b t q st).perm t' ∧ _ ↔ _
    rw [convStore_perm]
    refine and_congr_right fun hi => ?_
    by_cases et : t' = t
    · subst et
      have hca := hc x _ _ _ _ e
      refine iff_of_false ?_ fun hb => hb.cell hca.cell
      intro hb
      have h1 := hca.first
      have h2 := hca.last
      rcases convStore_cases (s.leaf x).b t' q st with ⟨h, _⟩ | ⟨h, e1⟩ | ⟨h, e1⟩ | ⟨h, e1⟩ | ⟨h, e1⟩ | ⟨h, _⟩
      · omega
      · rw [e1] at hb; exact hb.cell hca.cell
      · rw [e1] at hb; exact hb.cell hca.cell
      · rw [e1] at hb; exact hb.cell hca.cell
      · rw [e1] at hb
        cases φ with
        | false =>
          obtain ⟨_, v, hv⟩ := hb
          have hv : upd (s.leaf x).b.cell t' (.layer q) t' = .val v := hv
          rw [upd_same] at hv; cases hv
        | true => exact hno ⟨hb.1.2.2, x, lv, t', q, st, e, hb.1.1⟩
      · omega
    · have hne := convStore_ne (s.leaf x).b (t := t) q st et
      exact Has.congr (by rw [convStore_ikey]) hne.1 hne.2.1 hne.2.2
  case h_9 => exact Eff.refl hj

theorem Eff.act {s : St V} {k : Key} (h : Inv s) (hc : ConvOk s) (hno : ¬ Converting s k) (hj : JK φ s k) (f : Bool)
    (a : Act V) (hno' : ¬ Converting (act f s a) k) : Eff φ s (act f s a) k := by
  cases a with
  | lock x =>
    unfold Chain.act
    simp only
    split
    · rename_i hc
      have hd : NV.isDirty (s.leaf x).word = false := by
        cases hd : NV.isDirty (s.leaf x).word with
        | false => rfl
        | true => rw [not_lockable hd] at hc; cases hc.2
      have hn : (s.hold x).new = none := by rw [h.free_of_clean hd]; rfl
      exact Eff.quiet h hj (l := { s.leaf x with word := NV.lockedOf (s.leaf x).word }) (h' := .locked _) rfl rfl rfl rfl rfl
        hn rfl hc.1 (fun _ _ => Iff.rfl)
    · exact Eff.refl hj
  | write x t ik kl c sf =>
    unfold Chain.act
    simp only
    split
    · rename_i lv e
      split
      · rename_i hf
        rw [freeSlot_iff] at hf
        have hl := h.own x (by rw [e]; simp) (by rw [e]; simp)
        have hn : (s.hold x).new = none := by rw [e]; rfl
        refine Eff.quiet h hj (l := { s.leaf x with b := setSlot (s.leaf x).b t ik kl c sf }) (h' := s.hold x) rfl
          (by rw [upd_id]) rfl rfl rfl hn hn hl ?_
        intro _ t'
        show In (s.leaf x).b.perm t' ∧ _ ↔ _
        refine and_congr_right fun hi => ?_
        have et : t' ≠ t := by rintro rfl; exact hf hi
        exact Has.congr (upd_ne _ _ _ et) (upd_ne _ _ _ et) (upd_ne _ _ _ et) (upd_ne _ _ _ et)
      · exact Eff.refl hj
    · exact Eff.refl hj
  | publish x pos off =>
    unfold Chain.act
    simp only
    split
    · rename_i lv e
      split
      · rename_i hc
        obtain ⟨hpos, hoff, hfit⟩ := hc
        have hl := h.own x (by rw [e]; simp) (by rw [e]; simp)
        have hn : (s.hold x).new = none := by rw [e]; rfl
        have hs := h.still hn hl
        have hy : (⟨⟨0, 0⟩, 0#32, (s.leaf x).b.perm, pos, off⟩ : Try).Ok := ⟨hs.1, hpos, hoff⟩
        have hin := in_newPerm hy
        unfold fits at hfit
        have hfit := of_decide_eq_true hfit
        revert hin hfit
        generalize hyy : (⟨⟨0, 0⟩, 0#32, (s.leaf x).b.perm, pos, off⟩ : Try) = y
        have hyp : y.p = (s.leaf x).b.perm := by rw [← hyy]
        rw [hyp]
        rintro hin ⟨-, -, hf2, hf3, hf4, hf5, -⟩
        refine Eff.quiet h hj (l := { s.leaf x with b := { (s.leaf x).b with perm := y.newPerm } }) (h' := s.hold x) rfl
          (by rw [upd_id]) rfl rfl rfl hn hn hl ?_
        intro hlo t
        show In y.newPerm t ∧ Has φ { (s.leaf x).b with perm := y.newPerm } t k ↔ _
        rw [hin, has_perm]
        constructor
        · rintro ⟨hi | rfl, hb⟩
          · exact ⟨hi, hb⟩
          · exfalso
            have hk : (s.leaf x).b.ikey y.slot = k.ikey := hb.ikey
            cases φ with
            | true =>
              obtain ⟨_, q, hq⟩ := hb
              rw [hq] at hf5; cases hf5
            | false =>
              rcases hj x hl hlo with ⟨t, ht⟩ | hp | ⟨y1, u, hy1, _⟩
              · unfold Here at ht
                rw [e] at ht
                obtain ⟨⟨i, hi, ei⟩, hb1⟩ := ht
                have hi : i < size 5 (s.leaf x).b.perm := hi
                have ei : get 5 (s.leaf x).b.perm i = t := ei
                have hk1 : (s.leaf x).b.ikey t = k.ikey := hb1.1.1
                refine hf2 i hi ⟨by rw [ei]; omega, ?_⟩
                rw [ei, klx_searchKlx hb1.1, klx_searchKlx hb.1]
              · have := hf4 hp.1
                have := hp.2
                omega
              · rw [hn] at hy1; cases hy1
        · rintro ⟨hi, hb⟩; exact ⟨.inl hi, hb⟩
      · exact Eff.refl hj
    · exact Eff.refl hj
  | update x t v =>
    unfold Chain.act
    simp only
    split
    · rename_i lv w e e'
      have hl := h.own x (by rw [e]; simp) (by rw [e]; simp)
      have hn : (s.hold x).new = none := by rw [e]; rfl
      refine Eff.quiet h hj (l := { s.leaf x with b := { (s.leaf x).b with cell := upd (s.leaf x).b.cell t (.val v) } })
        (h' := s.hold x) rfl (by rw [upd_id]) rfl rfl rfl hn hn hl ?_
      intro _ t'
      refine and_congr_right fun _ => ?_
      by_cases et : t' = t
      · subst et
        cases φ with
        | false =>
          refine and_congr Iff.rfl ?_
          show (∃ v', upd (s.leaf x).b.cell t' (.val v) t' = .val v') ↔ _
          rw [upd_same, e']
          exact ⟨fun _ => ⟨w, rfl⟩, fun _ => ⟨v, rfl⟩⟩
        | true =>
          refine iff_of_false ?_ ?_
          · rintro ⟨_, q, hq⟩
            have hq : upd (s.leaf x).b.cell t' (.val v) t' = .layer q := hq
            rw [upd_same] at hq; cases hq
          · rintro ⟨_, q, hq⟩; rw [e'] at hq; cases hq
      · exact Has.congr rfl rfl rfl (upd_ne _ _ _ et)
    · exact Eff.refl hj
  | convert x t q =>
    revert hno'
    unfold Chain.act
    simp only
    split
    · rename_i lv e
      split
      · rename_i hg
        intro hno'
        have hl := h.own x (by rw [e]; simp) (by rw [e]; simp)
        have hn : (s.hold x).new = none := by rw [e]; rfl
        refine Eff.quiet h hj (l := { s.leaf x with b := convStore (s.leaf x).b t q 0 }) (h' := convNext lv t q 0) rfl rfl rfl rfl
          rfl hn (convNext_new _ _ _ _) hl ?_
        intro _ t'
        show In (convStore (s.leaf x).b t q 0).perm t' ∧ _ ↔ _
        rw [convStore_perm]
        refine and_congr_right fun hi => ?_
        by_cases et : t' = t
        · subst et
          refine iff_of_false (fun hb => hb.cell (upd_same _ _ _)) fun hb => ?_
          cases φ with
          | false =>
            have hk := klx_searchKlx hb.1
            rw [hg.2] at hk
            refine hno' ⟨hasSuffix_of_searchKlx hk.symm, x, lv, t', q, 1, upd_same _ _ _, ?_⟩
            show (upd s.leaf x _ x).b.ikey t' = _
            rw [upd_same]
            show (convStore (s.leaf x).b t' q 0).ikey t' = _
            rw [convStore_ikey]; exact hb.1.1
          | true =>
            have := hb.1.2.1
            rw [hg.2] at this
            omega
        · have hne := convStore_ne (s.leaf x).b (t := t) q 0 et
          exact Has.congr (by rw [convStore_ikey]) hne.1 hne.2.1 hne.2.2
      · intro _; exact Eff.refl hj
    · intro _; exact Eff.refl hj
  | giveUp x =>
    unfold Chain.act
    simp only
    split
    · rename_i lv e
      have hl := h.own x (by rw [e]; simp) (by rw [e]; simp)
      have hn : (s.hold x).new = none := by rw [e]; rfl
      exact Eff.quiet h hj (l := s.leaf x) (h' := .unlock lv) (by rw [upd_id]) rfl rfl rfl rfl hn rfl hl
        (fun _ _ => Iff.rfl)
    · exact Eff.refl hj
  | markSplit x =>
    unfold Chain.act
    simp only
    split
    · rename_i lv e
      have hl := h.own x (by rw [e]; simp) (by rw [e]; simp)
      have hn : (s.hold x).new = none := by rw [e]; rfl
      exact Eff.quiet h hj (h' := .marked _) rfl rfl rfl rfl rfl hn rfl hl (fun _ _ => Iff.rfl)
    · exact Eff.refl hj
  | freeze x sp y =>
    unfold Chain.act
    simp only
    split
    · rename_i lv e
      split
      · rename_i hc
        exact Eff.freeze h hj e rfl hc.2.2.2.1 rfl rfl rfl (fun _ => has_perm) rfl rfl
      · exact Eff.refl hj
    · exact Eff.refl hj
  | hold x => exact Eff.hstep h hc hno hj x
  | release y =>
    unfold Chain.act
    simp only
    split
    · rename_i e
      split
      · rename_i hl
        have hn : (s.hold y).new = none := by rw [e]; rfl
        exact Eff.quiet h hj (h' := .free) rfl rfl rfl rfl rfl hn rfl hl (fun _ _ => Iff.rfl)
      · exact Eff.refl hj
    · exact Eff.refl hj
  | start i x k =>
    unfold Chain.act
    simp only
    split
    · split
      · exact Eff.of_rd hj rfl rfl rfl
      · exact Eff.refl hj
    · split
      · exact Eff.of_rd hj rfl rfl rfl
      · exact Eff.refl hj
    · exact Eff.refl hj
  | read i => exact Eff.of_rd hj rfl rfl rfl

/-- Where a lookup of `k` stands. -/
def Place (s : St V) (k : Key) (x : Nat) : Prop := s.live x = true ∧ (s.leaf x).lo ≤ k.ikey

/-- `keylenx` of a slot that holds `k`. -/
def IsKlx (φ : Bool) (k : Key) (x : Nat) : Prop :=
  match φ with
  | false => x = searchKlx k
  | true => layerKeylenx ≤ x ∧ k.hasSuffix = true

theorem Has.klx {b : Leaf V} {t : Nat} {k : Key} (h : Has φ b t k) : IsKlx φ k (b.klx t) := by
  cases φ with
  | false => exact klx_searchKlx h.1
  | true => exact h.1.2

/-- What a scan of leaf `x` for `k` knows, `H t` saying that slot `t` holds `k`. -/
def Scan (φ : Bool) (H : Nat → Prop) (k : Key) : RPc V → Prop
  | .ikey _ _ p i | .klx _ _ p i => ∀ t, H t → ∃ j, i ≤ j ∧ j < size 5 p ∧ get 5 p j = t
  | .ptr _ _ p i x => ∀ t, H t → (∃ j, i < j ∧ j < size 5 p ∧ get 5 p j = t) ∨ (get 5 p i = t ∧ IsKlx φ k x)
  | .sufKlx _ _ p i _ | .suf _ _ p i _ =>
    searchKlx k = ksufKeylenx ∧ ∀ t, H t → (∃ j, i < j ∧ j < size 5 p ∧ get 5 p j = t) ∨ (φ = false ∧ get 5 p i = t)
  | .check _ _ none => ∀ t, ¬ H t
  | .dirty _ => ∀ t, ¬ H t
  | .done _ r => r ≠ .absent
  | _ => True

/-- The key of a search in one leaf. -/
def rkey : RPc V → Option Key
  | .idle => none
  | .stable k | .perm k _ | .ikey k _ _ _ | .klx k _ _ _ | .ptr k _ _ _ _ | .sufKlx k _ _ _ _ | .suf k _ _ _ _
  | .check k _ _ | .dirty k | .done k _ => some k

/-- What a lookup of `k` knows. -/
def Know (φ fixed : Bool) (s : St V) (k : Key) : CPc V → Prop
  | .idle => True
  | .leaf x c => rkey c = some k → Place s k x ∧ Scan φ (fun t => Here φ s x t k) k c
  | .adv1 x k' _ | .adv2 x k' _ _ | .adv3 x k' _ => k' = k → Place s k x
  | .adv4 x0 x k' | .adv5 x0 x k' _ => k' = k → Place s k x0 ∧ Place s k x
  | .adv6 x0 x k' _ z => k' = k → Place s k x0 ∧ Place s k x ∧ s.live z = true
  | .next x k' => k' = k → Place s k x ∧ Pass s x k.ikey
  | .bound x k' z => k' = k → Place s k z
  | .done k' r saw => k' = k → r = .absent → saw = true ∧ fixed = false

theorem Scan.mono {H H' : Nat → Prop} {k : Key} {c : RPc V} (h : ∀ t, H' t → H t) (hs : Scan φ H k c) : Scan φ H' k c := by
  cases c <;> simp only [Scan] at hs ⊢ <;> try trivial
  case ikey => exact fun t ht => hs t (h t ht)
  case klx => exact fun t ht => hs t (h t ht)
  case ptr => exact fun t ht => hs t (h t ht)
  case sufKlx => exact ⟨hs.1, fun t ht => hs.2 t (h t ht)⟩
  case suf => exact ⟨hs.1, fun t ht => hs.2 t (h t ht)⟩
  case check k v snap => cases snap <;> simp only [Scan] at hs ⊢; exact fun t ht => hs t (h t ht)
  case dirty => exact fun t ht => hs t (h t ht)

theorem Place.mono {s s' : St V} {k : Key} (e : Eff φ s s' k) {x : Nat} (h : Place s k x) : Place s' k x :=
  ⟨e.live x h.1, by rw [e.lo x h.1]; exact h.2⟩

theorem Know.mono {f : Bool} {s s' : St V} {k : Key} (e : Eff φ s s' k) {c : CPc V} (h : Know φ f s k c) : Know φ f s' k c := by
  cases c with
  | idle => trivial
  | leaf x c => exact fun hk => ⟨(h hk).1.mono e, (h hk).2.mono fun t ht => e.grow x t (h hk).1.1 (h hk).1.2 ht⟩
  | adv1 x k' v => exact fun hk => (h hk).mono e
  | adv2 x k' v w => exact fun hk => (h hk).mono e
  | adv3 x k' v => exact fun hk => (h hk).mono e
  | adv4 x0 x k' => exact fun hk => ⟨(h hk).1.mono e, (h hk).2.mono e⟩
  | adv5 x0 x k' v => exact fun hk => ⟨(h hk).1.mono e, (h hk).2.mono e⟩
  | adv6 x0 x k' v z => exact fun hk => ⟨(h hk).1.mono e, (h hk).2.1.mono e, e.live _ (h hk).2.2⟩
  | next x k' => exact fun hk => ⟨(h hk).1.mono e, e.pass x _ (h hk).1.1 (h hk).2⟩
  | bound x k' z => exact fun hk => (h hk).mono e
  | done k' r w => exact h

theorem interp_ne (x : Nat) (c : Cell V) : interp x c ≠ .absent := by
  unfold interp
  split <;> (split <;> simp)

/-- A step of a lookup keeps what it knows. -/
theorem Know.step {f : Bool} {s : St V} {k : Key} (hi : Inv s) (hj : JK φ s k) {c : CPc V} (h : Know φ f s k c) :
    Know φ f s k (cstep f s.leaf c) := by
  have hadv : ∀ x0 x k' ver, (k' = k → Place s k x0 ∧ Place s k x) → Know φ f s k (advRet x0 x k' ver) := by
    intro x0 x k' ver hp
    unfold advRet
    split
    · intro hk; cases hk; exact ⟨(hp rfl).1, trivial⟩
    · intro hk; cases hk; exact ⟨(hp rfl).2, trivial⟩
  cases c with
  | idle => trivial
  | done k' r w => exact h
  | adv1 x k' v =>
    show Know φ f s k (if _ then _ else _)
    split
    · exact h
    · exact h
  | adv2 x k' v w =>
    show Know φ f s k (if _ then _ else _)
    split
    · exact fun hk => ⟨h hk, h hk⟩
    · exact h
  | adv3 x k' w =>
    show Know φ f s k (if _ then _ else _)
    split
    · exact fun hk => ⟨h hk, h hk⟩
    · exact hadv _ _ _ _ fun hk => ⟨h hk, h hk⟩
  | adv4 x0 x k' =>
    show Know φ f s k (if _ then _ else _)
    split
    · exact h
    · exact h
  | adv5 x0 x k' w =>
    show Know φ f s k (if _ then _ else if _ then _ else _)
    split
    · exact h
    · split
      · exact hadv _ _ _ _ h
      · rename_i h0
        exact fun hk => ⟨(h hk).1, (h hk).2, (hi.link x (h hk).2.1 h0).1⟩
  | adv6 x0 x k' w z =>
    show Know φ f s k (if _ then _ else _)
    split
    · rename_i hlo
      exact fun hk => ⟨(h hk).1, (h hk).2.2, by rw [← hk]; exact hlo⟩
    · exact hadv _ _ _ _ fun hk => ⟨(h hk).1, (h hk).2.1⟩
  | next x k' =>
    show Know φ f s k (if _ then (if f then _ else _) else if _ then _ else _)
    split
    · split
      · intro hk; cases hk; exact ⟨(h rfl).1, trivial⟩
      · rename_i hf
        exact fun hk _ => ⟨rfl, by simpa using hf⟩
    · split
      · rename_i h0
        exact fun hk => absurd h0 (h hk).2.1
      · rename_i h0
        exact fun hk => ⟨(hi.link x (h hk).1.1 h0).1, (h hk).2.2⟩
  | bound x k' z =>
    show Know φ f s k (if _ then _ else _)
    split
    · intro hk; cases hk; exact ⟨h rfl, trivial⟩
    · rename_i hlo
      intro hk
      have := (h hk).2
      rw [hk] at hlo
      exact absurd this hlo
  | leaf x c =>
    cases c with
    | idle => trivial
    | done k' r =>
      intro hk hr
      have := (h (by rw [hk]; rfl)).2
      exact absurd hr this
    | stable k' =>
      show Know φ f s k (.leaf x (if _ then _ else _))
      split
      · exact fun hk => ⟨(h hk).1, trivial⟩
      · exact fun hk => ⟨(h hk).1, trivial⟩
    | perm k' v =>
      show Know φ f s k (if _ then _ else _)
      split
      · exact fun hk => ⟨(h hk).1, trivial⟩
      · rename_i hfz
        intro hk
        refine ⟨(h hk).1, ?_⟩
        show ∀ t, _ → _
        intro t ht
        have hn : (s.hold x).froz = none := by
          cases hz : (s.hold x).froz with
          | none => rfl
          | some q =>
            obtain ⟨raw, sp, y⟩ := q
            rw [(hi.frozen x raw sp y hz).1, freeze_frozen] at hfz
            exact absurd rfl hfz
        unfold Here at ht
        rw [cur_none hn] at ht
        obtain ⟨⟨j, hj, e⟩, _⟩ := ht
        exact ⟨j, Nat.zero_le _, hj, e⟩
    | ikey k' v p i =>
      show Know φ f s k (.leaf x (if _ then (if _ then _ else _) else _))
      split
      · rename_i hlt
        split
        · exact h
        · rename_i hne
          intro hk
          obtain ⟨hp, hs⟩ := h hk
          cases hk
          refine ⟨hp, ?_⟩
          intro t ht
          obtain ⟨j, h1, h2, h3⟩ := hs t ht
          refine ⟨j, ?_, h2, h3⟩
          have : j ≠ i := by
            rintro rfl
            exact hne (by rw [h3]; exact ht.2.ikey)
          omega
      · rename_i hge
        intro hk
        obtain ⟨hp, hs⟩ := h hk
        refine ⟨hp, ?_⟩
        intro t ht
        obtain ⟨j, h1, h2, h3⟩ := hs t ht
        omega
    | klx k' v p i =>
      intro hk
      obtain ⟨hp, hs⟩ := h hk
      cases hk
      refine ⟨hp, ?_⟩
      intro t ht
      obtain ⟨j, h1, h2, h3⟩ := hs t ht
      by_cases e : j = i
      · subst e
        exact .inr ⟨h3, by rw [h3]; exact ht.2.klx⟩
      · exact .inl ⟨j, by omega, h2, h3⟩
    | ptr k' v p i w =>
      have hskip : (∀ t, Here φ s x t k → k' = k → get 5 p i = t → IsKlx φ k w → False) →
          Know φ f s k (.leaf x (.ikey k' v p (i + 1))) := by
        intro hno hk
        obtain ⟨hp, hs⟩ := h hk
        refine ⟨hp, ?_⟩
        intro t ht
        rcases hs t ht with ⟨j, h1, h2, h3⟩ | ⟨h1, h2⟩
        · exact ⟨j, by omega, h2, h3⟩
        · exact absurd (hno t ht (by cases hk; rfl) h1 h2) id
      have hgo : Know φ f s k (.leaf x (if w = searchKlx k' then
          if w = ksufKeylenx then .sufKlx k' v p i ((s.leaf x).b.cell (get 5 p i))
          else .check k' v (some (w, (s.leaf x).b.cell (get 5 p i)))
        else if layerKeylenx ≤ w ∧ k'.hasSuffix then .check k' v (some (w, (s.leaf x).b.cell (get 5 p i)))
        else .ikey k' v p (i + 1))) := by
        split
        · rename_i hw
          split
          · rename_i hw'
            intro hk
            obtain ⟨hp, hs⟩ := h hk
            cases hk
            refine ⟨hp, by rw [← hw]; exact hw', ?_⟩
            intro t ht
            rcases hs t ht with h1 | ⟨h1, h2⟩
            · exact .inl h1
            · refine .inr ⟨?_, h1⟩
              cases φ with
              | false => rfl
              | true =>
                have h3 : 128 ≤ w := h2.1
                have hw' : w = 64 := hw'
                omega
          · exact fun hk => ⟨(h hk).1, trivial⟩
        · rename_i hw
          split
          · exact fun hk => ⟨(h hk).1, trivial⟩
          · rename_i hw2
            refine hskip fun t ht hk _ h2 => ?_
            subst hk
            cases φ with
            | false => exact hw h2
            | true => exact hw2 h2
      show Know φ f s k (.leaf x (match (s.leaf x).b.cell (get 5 p i) with
        | .null => .ikey k' v p (i + 1)
        | c => if w = searchKlx k' then (if w = ksufKeylenx then .sufKlx k' v p i c else .check k' v (some (w, c)))
          else if layerKeylenx ≤ w ∧ k'.hasSuffix then .check k' v (some (w, c)) else .ikey k' v p (i + 1)))
      cases hc : (s.leaf x).b.cell (get 5 p i) with
      | null =>
        refine hskip fun t ht _ h1 _ => ?_
        exact ht.2.cell (by rw [← h1, hc])
      | val u => rw [hc] at hgo; exact hgo
      | layer q => rw [hc] at hgo; exact hgo
    | sufKlx k' v p i c =>
      show Know φ f s k (.leaf x (if _ then _ else _))
      split
      · exact h
      · rename_i hne
        intro hk
        obtain ⟨hp, hs0, hs⟩ := h hk
        refine ⟨hp, ?_⟩
        intro t ht
        rcases hs t ht with ⟨j, h1, h2, h3⟩ | ⟨rfl, h1⟩
        · exact ⟨j, by omega, h2, h3⟩
        · exact absurd (by rw [h1, klx_searchKlx ht.2.1]; exact hs0) hne
    | suf k' v p i c =>
      show Know φ f s k (.leaf x (if _ then _ else _))
      split
      · exact fun hk => ⟨(h hk).1, trivial⟩
      · rename_i hne
        intro hk
        obtain ⟨hp, hs0, hs⟩ := h hk
        cases hk
        refine ⟨hp, ?_⟩
        intro t ht
        rcases hs t ht with ⟨j, h1, h2, h3⟩ | ⟨rfl, h1⟩
        · exact ⟨j, by omega, h2, h3⟩
        · have := ht.2.1.2
          rw [if_pos (hasSuffix_of_searchKlx hs0)] at this
          exact absurd (by rw [h1]; exact this.2) hne
    | check k' v snap =>
      show Know φ f s k (if _ then _ else .leaf x (if _ then _ else _))
      split
      · intro hk; cases hk; exact (h rfl).1
      · rename_i hc
        cases snap with
        | none => exact h
        | some q =>
          intro hk
          exact ⟨(h hk).1, interp_ne _ _⟩
    | dirty k' =>
      show Know φ f s k (if _ then _ else _)
      split
      · exact fun hk => ⟨(h hk).1, trivial⟩
      · rename_i hd
        intro hk; cases hk
        obtain ⟨hp, hs⟩ := h rfl
        have hfree := hi.free_of_clean (x := x) (by simpa using hd)
        refine ⟨hp, ?_⟩
        rcases hj x hp.1 hp.2 with ⟨t, ht⟩ | hpa | ⟨y, u, hy, _⟩
        · exact absurd ht (hs t)
        · exact hpa
        · rw [hfree] at hy; cases hy

end Verif.Chain
