import Verif.Prop.ChainRace
import Verif.Prop.NodeVersion
import Verif.Spec.Chain
set_option linter.unusedSimpArgs false
set_option linter.unusedVariables false
/-!
# Version words of the leaves of a chain, and what an unchanged word says about the leaf
-/
namespace Verif.Chain
open Verif.Internode (upd upd_same upd_ne)
open Verif.Perm (size get makeSorted24 setSize params24)
open Verif.Tree (PermOK Leaf Cell searchKlx ksufKeylenx layerKeylenx)
open Verif.Cas (In locked_bits dirty_split not_lockable Try in_newPerm not_frozen freeze_frozen)
open Verif.Race (SlotIs RPc Out rstep interp)
open Verif.NV (W lockedOf unlockOf SPLITTING Idle run nSections Ev heldAfter cycle)
variable {V : Type}

/-- The split has begun; `lv` is the guard's word. -/
def HPc.inSplit : HPc → Option W
  | .marked lv | .take lv _ _ _ _ | .clear lv _ _ _ _ | .unfreeze lv _ _ _ | .mark lv _ | .setNext lv _ | .publish lv _ => some lv
  | _ => none

/-- The leaf is locked and not being split; `lv` is the guard's word. -/
def HPc.work : HPc → Option W
  | .locked lv | .conv lv _ _ _ => some lv
  | _ => none

theorem convNext_work (lv : W) (t q st : Nat) : (convNext lv t q st).work = some lv := by
  unfold convNext; split <;> rfl

/-- What a step does to the holder and the version word of a leaf. -/
inductive WStep : HPc → W → HPc → W → Prop
  | same (h w) : WStep h w h w
  | lock (w) (hw : NV.lockable w = true) : WStep .free w (.locked (lockedOf w)) (lockedOf w)
  | mark (lv w) : WStep (.locked lv) w (.marked (lv ||| SPLITTING)) (w ||| SPLITTING)
  | inner (h h' lv w) (e : h.inSplit = some lv) (e' : h'.inSplit = some lv) : WStep h w h' w
  | work (h h' lv w) (e : h.work = some lv) (e' : h'.work = some lv) : WStep h w h' w
  | linked (h lv w) (e : h.inSplit = some lv) : WStep h w (.unlock lv) w
  | giveUp (lv w) : WStep (.locked lv) w (.unlock lv) w
  | unlock (lv w) : WStep (.unlock lv) w .free (unlockOf lv)
  | release (w) : WStep .newborn w .free (NV.unlockForSplit w)

theorem wstep_act {s : St V} (h : Inv s) (f : Bool) (a : Act V) {x : Nat} (hx : s.used x = true) :
    WStep (s.hold x) (s.leaf x).word ((act f s a).hold x) ((act f s a).leaf x).word := by
  have one : ∀ (z : Nat) (l : LeafSt V) (h' : HPc), WStep (s.hold z) (s.leaf z).word h' l.word →
      WStep (s.hold x) (s.leaf x).word (upd s.hold z h' x) (upd s.leaf z l x).word := by
    intro z l h' hw
    rw [upd_if, upd_if]
    split
    · rename_i e; subst e; exact hw
    · exact .same _ _
  have two : ∀ (z y : Nat) (l l' : LeafSt V) (h' : HPc), WStep (s.hold z) (s.leaf z).word h' l.word → l'.word = (s.leaf y).word →
      WStep (s.hold x) (s.leaf x).word (upd s.hold z h' x) (upd (upd s.leaf y l') z l x).word := by
    intro z y l l' h' hw hl
    rw [upd_if, upd_if]
    split
    · rename_i e; subst e; exact hw
    · rw [upd_if]; split
      · rename_i e; subst e; rw [hl]; exact .same _ _
      · exact .same _ _
  have keep : ∀ (z : Nat) (l : LeafSt V), l.word = (s.leaf z).word →
      WStep (s.hold x) (s.leaf x).word (s.hold x) (upd s.leaf z l x).word := by
    intro z l hw
    rw [upd_if]
    split
    · rename_i e; subst e; rw [hw]; exact .same _ _
    · exact .same _ _
  have holdOnly : ∀ (z : Nat) (h' : HPc), WStep (s.hold z) (s.leaf z).word h' (s.leaf z).word →
      WStep (s.hold x) (s.leaf x).word (upd s.hold z h' x) (s.leaf x).word := by
    intro z h' hw
    rw [upd_if]
    split
    · rename_i e; subst e; exact hw
    · exact .same _ _
  have refl : WStep (s.hold x) (s.leaf x).word (s.hold x) (s.leaf x).word := .same _ _
  cases a with
  | lock z =>
    unfold act; simp only; split
    · rename_i hc
      have hd : NV.isDirty (s.leaf z).word = false := by
        cases hd : NV.isDirty (s.leaf z).word with
        | false => rfl
        | true => rw [not_lockable hd] at hc; cases hc.2
      exact one z { s.leaf z with word := _ } _ (by rw [h.free_of_clean hd]; exact .lock _ hc.2)
    · exact refl
  | write z t ik kl c sf =>
    unfold act; simp only; split
    · split
      · exact keep z { s.leaf z with b := _ } rfl
      · exact refl
    · exact refl
  | publish z pos off =>
    unfold act; simp only; split
    · split
      · exact keep z { s.leaf z with b := _ } rfl
      · exact refl
    · exact refl
  | update z t v =>
    unfold act; simp only; split
    · exact keep z { s.leaf z with b := _ } rfl
    · exact refl
  | convert z t q =>
    unfold act; simp only; split
    · rename_i lv e
      split
      · exact one z { s.leaf z with b := _ } _ (by rw [e]; exact .work _ _ lv _ rfl (convNext_work _ _ _ _))
      · exact refl
    · exact refl
  | giveUp z =>
    unfold act; simp only; split
    · rename_i lv e
      exact holdOnly z _ (by rw [e]; exact .giveUp _ _)
    · exact refl
  | markSplit z =>
    unfold act; simp only; split
    · rename_i lv e
      exact one z { s.leaf z with word := _ } _ (by rw [e]; exact .mark _ _)
    · exact refl
  | freeze z sp y =>
    unfold act; simp only; split
    · rename_i lv e
      split
      · rename_i hc
        have hy : x ≠ y := by rintro rfl; rw [hc.2.2.2.1] at hx; cases hx
        show WStep _ _ (upd (upd s.hold y _) z _ x) (upd (upd s.leaf y _) z _ x).word
        by_cases ez : x = z
        · subst ez; rw [upd_same, upd_same, e]; exact .inner _ _ lv _ rfl rfl
        · rw [upd_ne _ _ _ ez, upd_ne _ _ _ ez, upd_ne _ _ _ hy, upd_ne _ _ _ hy]; exact refl
      · exact refl
    · exact refl
  | hold z =>
    show WStep _ _ ((hstep s z).hold x) ((hstep s z).leaf x).word
    unfold hstep
    split
    · rename_i lv raw sp y j e
      split
      · exact two z y _ _ _ (by rw [e]; exact .inner _ _ lv _ rfl rfl) rfl
      · exact holdOnly z _ (by rw [e]; exact .inner _ _ lv _ rfl rfl)
    · rename_i lv raw sp y j e
      split
      · exact one z _ _ (by rw [e]; exact .inner _ _ lv _ rfl rfl)
      · exact holdOnly z _ (by rw [e]; exact .inner _ _ lv _ rfl rfl)
    · rename_i lv raw sp y e
      exact two z y _ _ _ (by rw [e]; exact .inner _ _ lv _ rfl rfl) rfl
    · rename_i lv y e
      exact one z _ _ (by rw [e]; exact .inner _ _ lv _ rfl rfl)
    · rename_i lv y e
      show WStep _ _ (upd s.hold z _ x) (upd s.leaf y _ x).word
      have hw : (upd s.leaf y { s.leaf y with nx := (s.leaf z).nx } x).word = (s.leaf x).word := by
        rw [upd_if]; split
        · rename_i e; rw [e]
        · rfl
      rw [hw]
      exact holdOnly z _ (by rw [e]; exact .inner _ _ lv _ rfl rfl)
    · rename_i lv y e
      exact one z _ _ (by rw [e]; exact .linked _ lv _ rfl)
    · rename_i lv e
      exact one z { s.leaf z with word := _ } _ (by rw [e]; exact .unlock _ _)
    · rename_i lv t q st e
      exact one z { s.leaf z with b := _ } _ (by rw [e]; exact .work _ _ lv _ rfl (convNext_work _ _ _ _))
    · exact refl
  | release y =>
    unfold act; simp only; split
    · rename_i e
      split
      · exact one y { s.leaf y with word := _ } _ (by rw [e]; exact .release _)
      · exact refl
    · exact refl
  | start i z k =>
    unfold act; simp only; split
    · split <;> exact refl
    · split <;> exact refl
    · exact refl
  | read i => exact refl

/-- The word of a leaf whose last released word is `w`. -/
def Wd (w : W) (h : HPc) (word : W) : Prop :=
  match h with
  | .free => word = w
  | .newborn => False
  | .locked lv | .conv lv _ _ _ => lv = word ∧ word = lockedOf w
  | .unlock lv => lv = word ∧ (word = lockedOf w ∨ word = lockedOf w ||| SPLITTING)
  | h => h.inSplit = some word ∧ word = lockedOf w ||| SPLITTING

theorem wd_split {w word lv : W} {h : HPc} (e : h.inSplit = some lv) :
    Wd w h word ↔ lv = word ∧ word = lockedOf w ||| SPLITTING := by
  cases h <;> simp only [HPc.inSplit] at e <;> cases e <;>
    simp only [Wd, HPc.inSplit, Option.some.injEq]

theorem wd_work {w word lv : W} {h : HPc} (e : h.work = some lv) : Wd w h word ↔ lv = word ∧ word = lockedOf w := by
  cases h <;> simp only [HPc.work] at e <;> cases e <;> exact Iff.rfl

/-- One step: either the last released word stays, or the lock is released. -/
theorem Wd.step {w : W} {h h' : HPc} {u u' : W} (hw : Wd w h u) (hs : WStep h u h' u') :
    (Wd w h' u' ∧ ¬ (h ≠ .free ∧ h' = .free)) ∨
    (h ≠ .free ∧ h' = .free ∧ ∃ ms, u' = cycle w ms) := by
  cases hs with
  | same =>
    refine .inl ⟨hw, ?_⟩
    rintro ⟨h1, h2⟩; exact h1 h2
  | lock _ hl => cases hw; exact .inl ⟨⟨rfl, rfl⟩, by simp⟩
  | mark lv =>
    obtain ⟨rfl, rfl⟩ := hw
    exact .inl ⟨⟨rfl, rfl⟩, by simp⟩
  | inner =>
    rename_i lv e e'
    rw [wd_split e] at hw
    refine .inl ⟨(wd_split e').2 hw, ?_⟩
    rintro ⟨_, rfl⟩; cases e'
  | work =>
    rename_i lv e e'
    rw [wd_work e] at hw
    refine .inl ⟨(wd_work e').2 hw, ?_⟩
    rintro ⟨_, rfl⟩; cases e'
  | linked =>
    rename_i lv e
    rw [wd_split e] at hw
    exact .inl ⟨⟨hw.1, .inr hw.2⟩, by simp⟩
  | giveUp lv => exact .inl ⟨⟨hw.1, .inl hw.2⟩, by simp⟩
  | unlock lv =>
    obtain ⟨rfl, hw | hw⟩ := hw
    · exact .inr ⟨by simp, rfl, [], by rw [hw]; rfl⟩
    · exact .inr ⟨by simp, rfl, [.split], by rw [hw]; rfl⟩
  | release => exact hw.elim

/-- All words are well formed. -/
def WOk (h : HPc) (u : W) : Prop := (h = .newborn ∧ ∃ src, u = NV.newForSplit src) ∨ ∃ w, Idle w ∧ Wd w h u

theorem WOk.step {h h' : HPc} {u u' : W} (hw : WOk h u) (hs : WStep h u h' u') : WOk h' u' := by
  rcases hw with ⟨rfl, src, rfl⟩ | ⟨w, hi, hw⟩
  · cases hs with
    | same => exact .inl ⟨rfl, src, rfl⟩
    | inner => rename_i lv e e'; cases e
    | work => rename_i lv e e'; cases e
    | linked => rename_i lv e; cases e
    | release => exact .inr ⟨_, (NV.Reachable.born src).idle, rfl⟩
  · rcases hw.step hs with ⟨h1, _⟩ | ⟨_, rfl, ms, rfl⟩
    · exact .inr ⟨w, hi, h1⟩
    · exact .inr ⟨_, NV.cycle_idle hi ms, rfl⟩

theorem used_act {s : St V} (h : Inv s) (f : Bool) (a : Act V) {x : Nat} (hx : (act f s a).used x = true) : s.used x = true ∨
    ((act f s a).hold x = .newborn ∧ ∃ src, ((act f s a).leaf x).word = NV.newForSplit src) := by
  cases a with
  | freeze z sp y =>
    unfold act at hx ⊢; simp only at hx ⊢
    split at hx
    · rename_i lv e
      split at hx
      · rename_i hc
        simp only [if_pos hc]
        have hx : upd s.used y true x = true := hx
        rw [upd_if] at hx
        split at hx
        · rename_i exy
          subst exy
          by_cases exz : x = z
          · left; subst exz
            exact h.busy x (by rw [e]; simp)
          · right
            show upd (upd s.hold x _) z _ x = _ ∧ ∃ src, (upd (upd s.leaf x _) z _ x).word = _
            rw [upd_ne _ _ _ exz, upd_ne _ _ _ exz, upd_same, upd_same]
            exact ⟨rfl, _, rfl⟩
        · exact .inl hx
      · exact .inl hx
    · exact .inl hx
  | hold z =>
    left
    have : (act f s (.hold z)).used = s.used := by
      show (hstep s z).used = _
      unfold hstep
      split <;> first | rfl | (split <;> rfl)
    rw [this] at hx; exact hx
  | lock z => left; unfold act at hx; simp only at hx; split at hx <;> exact hx
  | write z t ik kl c sf => left; unfold act at hx; simp only at hx; split at hx <;> first | exact hx | (split at hx <;> exact hx)
  | publish z pos off => left; unfold act at hx; simp only at hx; split at hx <;> first | exact hx | (split at hx <;> exact hx)
  | update z t v => left; unfold act at hx; simp only at hx; split at hx <;> exact hx
  | convert z t q => left; unfold act at hx; simp only at hx; split at hx <;> first | exact hx | (split at hx <;> exact hx)
  | giveUp z => left; unfold act at hx; simp only at hx; split at hx <;> exact hx
  | markSplit z => left; unfold act at hx; simp only at hx; split at hx <;> exact hx
  | release z => left; unfold act at hx; simp only at hx; split at hx <;> first | exact hx | (split at hx <;> exact hx)
  | start i z k => left; unfold act at hx; simp only at hx; split at hx <;> first | exact hx | (split at hx <;> exact hx)
  | read i => exact .inl hx

theorem Exec.wok {f : Bool} {σ : Nat → St V} (h : Exec f σ) (n x : Nat) (hx : (σ n).used x = true) :
    WOk ((σ n).hold x) ((σ n).leaf x).word := by
  induction n generalizing x with
  | zero =>
    rw [(h.1.used x).mp hx, h.1.hold 1]
    rcases h.1.word with e | e
    · exact .inr ⟨_, (NV.Reachable.new true).idle, e⟩
    · exact .inr ⟨_, (NV.Reachable.step (.new true) .setRoot).idle, e⟩
  | succ n ih =>
    rcases h.2 n with e | ⟨a, e⟩
    · rw [e] at hx ⊢; exact ih x hx
    · rw [e] at hx ⊢
      rcases used_act (h.inv n) f a hx with hu | hu
      · exact (ih x hu).step (wstep_act (h.inv n) f a hu)
      · exact .inl hu

/-- No split is under way. -/
def Calm : HPc → Prop
  | .free | .locked _ | .conv _ _ _ _ => True
  | .unlock lv => NV.isSplitting lv = false
  | _ => False

theorem of_split' {w : W} (h : Idle w) : NV.F.of (lockedOf w ||| SPLITTING) = { NV.F.of w with w := 7 } := by
  rw [NV.F.of_or, NV.of_lockedOf h.w0, NV.of_SPLITTING]
  simp only [NV.F.map2, Nat.or_zero]; rfl

theorem of_split {w : W} (h : Idle w) : (NV.F.of (lockedOf w ||| SPLITTING)).w = 7 := by
  rw [of_split' h]

theorem of_plain {w : W} (h : Idle w) : NV.isSplitting (lockedOf w) = false := by
  have := NV.isSplitting_iff (lockedOf w)
  rw [NV.of_lockedOf h.w0] at this
  exact this

theorem of_marked {w : W} (h : Idle w) : NV.isSplitting (lockedOf w ||| SPLITTING) = true := by
  have := NV.isSplitting_iff (lockedOf w ||| SPLITTING)
  rw [of_split h] at this
  exact this

/-- A leaf that is calm, and was not released in the last step, was calm before. -/
theorem Calm.back {w : W} (hi : Idle w) {h h' : HPc} {u u' : W} (hw : Wd w h u) (hs : WStep h u h' u') (hc : Calm h')
    (hr : ¬ (h ≠ .free ∧ h' = .free)) : Calm h := by
  cases hs with
  | same => exact hc
  | lock => trivial
  | mark => trivial
  | inner =>
    rename_i lv e e'
    cases h' <;> simp only [HPc.inSplit] at e' <;> first | exact hc.elim | cases e'
  | work =>
    rename_i lv e e'
    cases h <;> simp only [HPc.work] at e <;> first | exact hc.elim | trivial | cases e
  | linked =>
    rename_i lv e
    rw [wd_split e] at hw
    exfalso
    have hc : NV.isSplitting lv = false := hc
    rw [hw.1, hw.2, of_marked hi] at hc; cases hc
  | giveUp => trivial
  | unlock => exact absurd ⟨by simp, rfl⟩ hr
  | release => exact absurd ⟨by simp, rfl⟩ hr

theorem releases_le (σ : Nat → St V) (x : Nat) {m n : Nat} (h : m ≤ n) : releases σ x m ≤ releases σ x n := by
  induction h with
  | refl => exact Nat.le_refl _
  | step _ ih => exact Nat.le_trans ih (Nat.le_add_right _ _)

theorem Exec.used_step {f : Bool} {σ : Nat → St V} (h : Exec f σ) {n x : Nat} (hx : (σ n).used x = true) :
    (σ (n + 1)).used x = true ∧ WStep ((σ n).hold x) ((σ n).leaf x).word ((σ (n + 1)).hold x) ((σ (n + 1)).leaf x).word := by
  rcases h.2 n with e | ⟨a, e⟩
  · rw [e]; exact ⟨hx, .same _ _⟩
  · rw [e]
    refine ⟨?_, wstep_act (h.inv n) f a hx⟩
    cases a with
    | freeze z sp y =>
      unfold act; simp only
      split
      · split
        · show upd _ y true x = true
          rw [upd_if]; split
          · rfl
          · exact hx
        · exact hx
      · exact hx
    | hold z =>
      show (hstep (σ n) z).used x = true
      unfold hstep
      split <;> first | exact hx | (split <;> exact hx)
    | lock z => unfold act; simp only; split <;> exact hx
    | write z t ik kl c sf => unfold act; simp only; split <;> first | exact hx | (split <;> exact hx)
    | publish z pos off => unfold act; simp only; split <;> first | exact hx | (split <;> exact hx)
    | update z t v => unfold act; simp only; split <;> exact hx
    | convert z t q => unfold act; simp only; split <;> first | exact hx | (split <;> exact hx)
    | giveUp z => unfold act; simp only; split <;> exact hx
    | markSplit z => unfold act; simp only; split <;> exact hx
    | release z => unfold act; simp only; split <;> first | exact hx | (split <;> exact hx)
    | start i z k => unfold act; simp only; split <;> first | exact hx | (split <;> exact hx)
    | read i => exact hx

/-- The word since a moment when the leaf was not locked, in terms of the critical sections that ended. -/
theorem Exec.words {f : Bool} {σ : Nat → St V} (h : Exec f σ) {a n x : Nat} (hx : (σ a).used x = true)
    (hf : (σ a).hold x = .free) (hn : a ≤ n) :
    (σ n).used x = true ∧ Idle ((σ a).leaf x).word ∧ ∃ es, nSections es = releases σ x n - releases σ x a ∧
      Wd (run ((σ a).leaf x).word es) ((σ n).hold x) ((σ n).leaf x).word := by
  induction hn with
  | refl =>
    refine ⟨hx, ?_, [], by simp [nSections], by rw [hf]; rfl⟩
    rcases h.wok a x hx with ⟨e, _⟩ | ⟨w, hi, hw⟩
    · rw [hf] at e; cases e
    · rw [hf] at hw; rw [hw]; exact hi
  | step hm ih =>
    rename_i m
    have hm : a ≤ m := hm
    obtain ⟨hu, hi, es, he, hw⟩ := ih
    obtain ⟨hu', hs⟩ := h.used_step hu
    have hle := releases_le σ x hm
    refine ⟨hu', hi, ?_⟩
    rcases hw.step hs with ⟨h1, h2⟩ | ⟨h1, h2, ms, h3⟩
    · refine ⟨es, ?_, h1⟩
      show _ = releases σ x m + _ - _
      rw [if_neg h2, he]; omega
    · refine ⟨es ++ [.cs ms], ?_, ?_⟩
      · show _ = releases σ x m + _ - _
        rw [if_pos ⟨h1, h2⟩]
        have : nSections (es ++ [.cs ms]) = nSections es + 1 := by
          rw [nSections, List.filter_append, List.length_append]; rfl
        rw [this, he]; omega
      · rw [h2]
        show _ = run _ (es ++ [.cs ms])
        rw [NV.run, List.foldl_append, h3]; rfl

/-- A version word that has not changed says that nobody released the lock and nobody is splitting. -/
theorem Exec.unchanged {f : Bool} {σ : Nat → St V} (h : Exec f σ) {a n x : Nat} (hx : (σ a).used x = true)
    (hf : (σ a).hold x = .free) (hn : a ≤ n) (hr : releases σ x n - releases σ x a < 2 ^ 19)
    (hc : NV.hasChanged ((σ a).leaf x).word ((σ n).leaf x).word = false) :
    releases σ x n = releases σ x a ∧ Calm ((σ n).hold x) := by
  obtain ⟨_, hi, es, he, hw⟩ := h.words hx hf hn
  have hwi := NV.run_idle hi es
  have hle := releases_le σ x hn
  rw [NV.hasChanged_eq_false_iff] at hc
  obtain ⟨-, -, -, -, h5, h6, h7⟩ := hc
  obtain ⟨p, hp1, hp2, hp3, -⟩ := NV.run_ctr hi es
  have hlt := NV.ctr_lt ((σ a).leaf x).word
  have none : ∀ u, (NV.F.of u).s = (NV.F.of (run ((σ a).leaf x).word es)).s →
      (NV.F.of u).i = (NV.F.of (run ((σ a).leaf x).word es)).i → ((σ n).leaf x).word = u → nSections es = 0 := by
    intro u e1 e2 e3
    rw [e3, e1] at h5
    rw [e3, e2] at h6
    have : NV.ctr (run ((σ a).leaf x).word es) = NV.ctr ((σ a).leaf x).word := by
      rw [NV.ctr, NV.ctr, h5, h6]
    rw [hp1] at this; omega
  have hno : ((σ n).leaf x).word ≠ lockedOf (run ((σ a).leaf x).word es) ||| SPLITTING := by
    intro e
    rw [e, of_split hwi, hi.w0] at h7
    exact absurd h7 (by decide)
  have hpl : ((σ n).leaf x).word = lockedOf (run ((σ a).leaf x).word es) → nSections es = 0 :=
    none _ (by rw [NV.of_lockedOf hwi.w0]) (by rw [NV.of_lockedOf hwi.w0])
  cases hh : (σ n).hold x with
  | free =>
    rw [hh] at hw
    have := none _ rfl rfl hw
    exact ⟨by omega, trivial⟩
  | locked lv =>
    rw [hh] at hw
    have := hpl hw.2
    exact ⟨by omega, trivial⟩
  | conv lv t q st =>
    rw [hh] at hw
    have := hpl hw.2
    exact ⟨by omega, trivial⟩
  | unlock lv =>
    rw [hh] at hw
    rcases hw.2 with e | e
    · have := hpl e
      refine ⟨by omega, ?_⟩
      show NV.isSplitting lv = false
      rw [hw.1, e]; exact of_plain hwi
    · exact absurd e hno
  | newborn => rw [hh] at hw; exact hw.elim
  | marked lv => rw [hh] at hw; exact absurd hw.2 hno
  | take lv raw sp y j => rw [hh] at hw; exact absurd hw.2 hno
  | clear lv raw sp y j => rw [hh] at hw; exact absurd hw.2 hno
  | unfreeze lv raw sp y => rw [hh] at hw; exact absurd hw.2 hno
  | mark lv y => rw [hh] at hw; exact absurd hw.2 hno
  | setNext lv y => rw [hh] at hw; exact absurd hw.2 hno
  | publish lv y => rw [hh] at hw; exact absurd hw.2 hno

/-- Slot `t` has a value and is not being converted. -/
def Valued (h : HPc) (b : Leaf V) (t : Nat) : Prop := h.trans ≠ some t ∧ ∃ v, b.cell t = .val v

/-- Published slots stay published and keep their keys; a slot with a value had it before; a slot with a short key keeps its
value; a sublayer stays one; suffixes are not altered. -/
def Stay (h : HPc) (b : Leaf V) (h' : HPc) (b' : Leaf V) : Prop :=
  ∀ t, In b.perm t → In b'.perm t ∧ b'.ikey t = b.ikey t ∧
    (Valued h' b' t → Valued h b t ∧ b'.klx t = b.klx t) ∧
    (128 ≤ b.klx t → 128 ≤ b'.klx t) ∧
    (∀ z, b'.ksuf t = some z → b.ksuf t = some z) ∧
    (Valued h b t → b.klx t ≤ 8 → Valued h' b' t ∧ b'.klx t = b.klx t)

theorem Stay.refl (h : HPc) (b : Leaf V) : Stay h b h b :=
  fun _ h => ⟨h, rfl, fun h => ⟨h, rfl⟩, id, fun _ => id, fun h _ => ⟨h, rfl⟩⟩

theorem Stay.trans {h h' h'' : HPc} {b b' b'' : Leaf V} (s : Stay h b h' b') (s' : Stay h' b' h'' b'') : Stay h b h'' b'' := fun t ht => by
  obtain ⟨h1, h2, h3, h4, h5, h6⟩ := s t ht
  obtain ⟨k1, k2, k3, k4, k5, k6⟩ := s' t h1
  refine ⟨k1, by rw [k2, h2], fun v => ?_, fun v => k4 (h4 v), fun z v => h5 z (k5 z v), fun v w => ?_⟩
  · obtain ⟨v1, v2⟩ := k3 v
    obtain ⟨v3, v4⟩ := h3 v1
    exact ⟨v3, by rw [v2, v4]⟩
  · obtain ⟨v1, v2⟩ := h6 v w
    obtain ⟨v3, v4⟩ := k6 v1 (by rw [v2]; exact w)
    exact ⟨v3, by rw [v4, v2]⟩

/-- A step that converts nothing. -/
theorem Stay.plain {h h' : HPc} {b b' : Leaf V} (e : h.trans = none) (e' : h'.trans = none)
    (s : ∀ t, In b.perm t → In b'.perm t ∧ b'.ikey t = b.ikey t ∧ b'.klx t = b.klx t ∧ b'.ksuf t = b.ksuf t ∧
      ((∃ v, b'.cell t = .val v) ↔ ∃ v, b.cell t = .val v)) : Stay h b h' b' := by
  intro t ht
  obtain ⟨h1, h2, h3, h4, h5⟩ := s t ht
  have hv : Valued h' b' t ↔ Valued h b t := by
    unfold Valued; rw [e, e', h5]
  rw [hv, h3, h4]
  exact ⟨h1, h2, fun v => ⟨v, rfl⟩, id, fun _ => id, fun v _ => ⟨v, rfl⟩⟩

theorem Stay.hold {h h' : HPc} {b : Leaf V} (e : h.trans = none) (e' : h'.trans = none) : Stay h b h' b :=
  Stay.plain e e' fun _ h => ⟨h, rfl, rfl, rfl, Iff.rfl⟩

theorem calm_new {h : HPc} (hc : Calm h) : h.new = none := by
  cases h <;> first | rfl | exact hc.elim

theorem trans_convNext {lv : W} {t q st t' : Nat} (e : (convNext lv t q st).trans = some t') : t' = t ∧ st < 4 := by
  unfold convNext at e
  split at e
  · rename_i h; cases e; exact ⟨rfl, h⟩
  · cases e

/-- One store of a conversion. -/
theorem Stay.conv {h : HPc} {b : Leaf V} {lv : W} {t q st : Nat} (hh : (h = .locked lv ∧ st = 0 ∧ b.klx t = 64) ∨
    (h = .conv lv t q st ∧ ConvAt b t st)) : Stay h b (convNext lv t q st) (convStore b t q st) := by
  intro t' ht
  refine ⟨by rw [convStore_perm]; exact ht, by rw [convStore_ikey], ?_⟩
  by_cases et : t' = t
  · subst et
    rcases hh with ⟨rfl, rfl, hk⟩ | ⟨rfl, hc⟩
    · refine ⟨fun v => absurd rfl v.1, fun v => v, fun _ v => v, fun _ v => ?_⟩
      rw [hk] at v; omega
    · have h1 := hc.first
      have h2 := hc.last
      have hk := hc.klx
      refine ⟨fun v => ?_, ?_, ?_, fun v => absurd rfl v.1⟩
      · exfalso
        obtain ⟨v1, v, v2⟩ := v
        rcases convStore_cases b t' q st with ⟨e1, e⟩ | ⟨e1, e⟩ | ⟨e1, e⟩ | ⟨e1, e⟩ | ⟨e1, e⟩ | ⟨e1, e⟩
        · omega
        · subst e1; exact v1 rfl
        · subst e1; exact v1 rfl
        · subst e1; exact v1 rfl
        · rw [e] at v2
          have v2 : upd b.cell t' (.layer q) t' = .val v := v2
          rw [upd_same] at v2; cases v2
        · omega
      · intro hl
        rcases convStore_cases b t' q st with ⟨e1, e⟩ | ⟨e1, e⟩ | ⟨e1, e⟩ | ⟨e1, e⟩ | ⟨e1, e⟩ | ⟨e1, e⟩
        · omega
        · rw [e]; exact hl
        · subst e1; rw [if_pos (by omega)] at hk; omega
        · rw [e]; show 128 ≤ upd b.klx t' 128 t'; rw [upd_same]
        · rw [e]; exact hl
        · omega
      · intro z hz
        rcases convStore_cases b t' q st with ⟨e1, e⟩ | ⟨e1, e⟩ | ⟨e1, e⟩ | ⟨e1, e⟩ | ⟨e1, e⟩ | ⟨e1, e⟩ <;> rw [e] at hz
        · exact hz
        · have hz : upd b.ksuf t' none t' = some z := hz
          rw [upd_same] at hz; cases hz
        all_goals exact hz
  · have hne := convStore_ne b (t := t) q st et
    have hv : Valued (convNext lv t q st) (convStore b t q st) t' ↔ Valued h b t' := by
      unfold Valued
      rw [hne.2.2]
      have e1 : (convNext lv t q st).trans ≠ some t' := fun e => et (trans_convNext e).1
      have e2 : h.trans ≠ some t' := by
        rcases hh with ⟨rfl, _⟩ | ⟨rfl, _⟩
        · simp [HPc.trans]
        · intro e; cases e; exact et rfl
      exact and_congr_left fun _ => iff_of_true e1 e2
    rw [hv, hne.1, hne.2.1]
    exact ⟨fun v => ⟨v, rfl⟩, id, fun _ => id, fun v _ => ⟨v, rfl⟩⟩

/-- A step on a leaf that is not being split. -/
theorem stay_act {s : St V} (h : Inv s) (hcv : ConvOk s) (f : Bool) (a : Act V) {x : Nat} (hl : s.live x = true)
    (hc : Calm (s.hold x)) : Stay (s.hold x) (s.leaf x).b ((act f s a).hold x) ((act f s a).leaf x).b := by
  have hn := calm_new hc
  have one : ∀ (z : Nat) (l : LeafSt V) (h' : HPc), (z = x → Stay (s.hold x) (s.leaf x).b h' l.b) →
      Stay (s.hold x) (s.leaf x).b (upd s.hold z h' x) (upd s.leaf z l x).b := by
    intro z l h' hw
    rw [upd_if, upd_if]
    split
    · rename_i e; exact hw e.symm
    · exact Stay.refl _ _
  have keep : ∀ (z : Nat) (l : LeafSt V), (z = x → Stay (s.hold x) (s.leaf x).b (s.hold x) l.b) →
      Stay (s.hold x) (s.leaf x).b (s.hold x) (upd s.leaf z l x).b := by
    intro z l hw
    rw [upd_if]
    split
    · rename_i e; exact hw e.symm
    · exact Stay.refl _ _
  have holdOnly : ∀ (z : Nat) (h' : HPc), (z = x → Stay (s.hold x) (s.leaf x).b h' (s.leaf x).b) →
      Stay (s.hold x) (s.leaf x).b (upd s.hold z h' x) (s.leaf x).b := by
    intro z h' hw
    rw [upd_if]
    split
    · rename_i e; exact hw e.symm
    · exact Stay.refl _ _
  have two : ∀ (z y : Nat) (l l' : LeafSt V) (h' : HPc), z ≠ x → y ≠ x →
      Stay (s.hold x) (s.leaf x).b (upd s.hold z h' x) (upd (upd s.leaf y l') z l x).b := by
    intro z y l l' h' e e'
    rw [upd_ne _ _ _ e.symm, upd_ne _ _ _ e.symm, upd_ne _ _ _ e'.symm]; exact Stay.refl _ _
  have ny : ∀ z y, (s.hold z).new = some y → z ≠ x ∧ y ≠ x := by
    intro z y e
    constructor
    · rintro rfl; rw [hn] at e; cases e
    · rintro rfl
      have := (h.new z y e).2.2.1
      rw [hl] at this; cases this
  have refl : Stay (s.hold x) (s.leaf x).b (s.hold x) (s.leaf x).b := Stay.refl _ _
  cases a with
  | lock z =>
    unfold act; simp only; split
    · rename_i hlk
      refine one z { s.leaf z with word := _ } _ ?_
      rintro rfl
      have hd : NV.isDirty (s.leaf z).word = false := by
        cases hd : NV.isDirty (s.leaf z).word with
        | false => rfl
        | true => rw [not_lockable hd] at hlk; cases hlk.2
      exact Stay.hold (by rw [h.free_of_clean hd]; rfl) rfl
    · exact refl
  | write z t ik kl c sf =>
    unfold act; simp only; split
    · rename_i e
      split
      · rename_i hf
        rw [freeSlot_iff] at hf
        refine keep z { s.leaf z with b := _ } ?_
        rintro rfl
        have htr : (s.hold z).trans = none := by rw [e]; rfl
        refine Stay.plain htr htr fun t' ht' => ?_
        have et : t' ≠ t := by rintro rfl; exact hf ht'
        refine ⟨ht', ?_, ?_, ?_, ?_⟩
        · show upd _ t _ t' = _; rw [upd_ne _ _ _ et]
        · show upd _ t _ t' = _; rw [upd_ne _ _ _ et]
        · show upd _ t _ t' = _; rw [upd_ne _ _ _ et]
        · show (∃ v, upd _ t _ t' = _) ↔ _; rw [upd_ne _ _ _ et]
      · exact refl
    · exact refl
  | publish z pos off =>
    unfold act; simp only; split
    · split
      · rename_i lv e hc
        obtain ⟨hpos, hoff, hfit⟩ := hc
        refine keep z { s.leaf z with b := _ } ?_
        rintro rfl
        have htr : (s.hold z).trans = none := by rw [e]; rfl
        refine Stay.plain htr htr fun t ht => ?_
        have hy : (⟨⟨0, 0⟩, 0#32, (s.leaf z).b.perm, pos, off⟩ : Try).Ok := ⟨(h.still hn hl).1, hpos, hoff⟩
        exact ⟨(in_newPerm hy t).2 (.inl ht), rfl, rfl, rfl, Iff.rfl⟩
      · exact refl
    · exact refl
  | update z t v =>
    unfold act; simp only; split
    · rename_i lv w e e'
      refine keep z { s.leaf z with b := _ } ?_
      rintro rfl
      have htr : (s.hold z).trans = none := by rw [e]; rfl
      refine Stay.plain htr htr fun t' ht' => ⟨ht', rfl, rfl, rfl, ?_⟩
      show (∃ v', upd (s.leaf z).b.cell t (.val v) t' = _) ↔ _
      by_cases et : t' = t
      · subst et; rw [upd_same, e']
        exact ⟨fun _ => ⟨w, rfl⟩, fun _ => ⟨v, rfl⟩⟩
      · rw [upd_ne _ _ _ et]
    · exact refl
  | convert z t q =>
    unfold act; simp only; split
    · rename_i lv e
      split
      · rename_i hg
        refine one z { s.leaf z with b := _ } _ ?_
        rintro rfl
        exact Stay.conv (.inl ⟨e, rfl, hg.2⟩)
      · exact refl
    · exact refl
  | giveUp z =>
    unfold act; simp only; split
    · rename_i lv e
      refine holdOnly z _ ?_
      rintro rfl
      exact Stay.hold (by rw [e]; rfl) rfl
    · exact refl
  | markSplit z =>
    unfold act; simp only; split
    · rename_i lv e
      refine one z { s.leaf z with word := _ } _ ?_
      rintro rfl
      exact Stay.hold (by rw [e]; rfl) rfl
    · exact refl
  | freeze z sp y =>
    unfold act; simp only; split
    · rename_i lv e
      split
      · rename_i hf
        have hz : z ≠ x := by rintro rfl; rw [e] at hc; exact hc
        have hy : y ≠ x := by
          rintro rfl
          have := h.used y hl
          rw [hf.2.2.2.1] at this; cases this
        show Stay _ _ (upd (upd s.hold y _) z _ x) (upd (upd s.leaf y _) z _ x).b
        rw [upd_ne _ _ _ hz.symm, upd_ne _ _ _ hz.symm, upd_ne _ _ _ hy.symm, upd_ne _ _ _ hy.symm]
        exact refl
      · exact refl
    · exact refl
  | hold z =>
    show Stay _ _ ((hstep s z).hold x) ((hstep s z).leaf x).b
    unfold hstep
    split
    · rename_i lv raw sp y j e
      have := ny z y (by rw [e]; rfl)
      split
      · exact two z y _ _ _ this.1 this.2
      · exact holdOnly z _ (fun e => absurd e this.1)
    · rename_i lv raw sp y j e
      have := ny z y (by rw [e]; rfl)
      split
      · exact one z _ _ (fun e => absurd e this.1)
      · exact holdOnly z _ (fun e => absurd e this.1)
    · rename_i lv raw sp y e
      have := ny z y (by rw [e]; rfl)
      exact two z y _ _ _ this.1 this.2
    · rename_i lv y e
      have := ny z y (by rw [e]; rfl)
      exact one z _ _ (fun e => absurd e this.1)
    · rename_i lv y e
      have := ny z y (by rw [e]; rfl)
      show Stay _ _ (upd s.hold z _ x) (upd s.leaf y _ x).b
      rw [upd_ne _ _ _ this.1.symm, upd_ne _ _ _ this.2.symm]
      exact refl
    · rename_i lv y e
      have := ny z y (by rw [e]; rfl)
      exact one z _ _ (fun e => absurd e this.1)
    · rename_i lv e
      refine one z { s.leaf z with word := _ } _ ?_
      rintro rfl
      exact Stay.hold (by rw [e]; rfl) rfl
    · rename_i lv t q st e
      refine one z { s.leaf z with b := _ } _ ?_
      rintro rfl
      exact Stay.conv (.inr ⟨e, hcv z lv t q st e⟩)
    · exact refl
  | release y =>
    unfold act; simp only; split
    · rename_i e
      split
      · refine one y { s.leaf y with word := _ } _ ?_
        rintro rfl
        exact Stay.hold (by rw [e]; rfl) rfl
      · exact refl
    · exact refl
  | start i z k =>
    unfold act; simp only; split
    · split <;> exact refl
    · split <;> exact refl
    · exact refl
  | read i => exact refl

theorem Exec.live_mono {f : Bool} {σ : Nat → St V} (h : Exec f σ) {a n x : Nat} (hx : (σ a).live x = true) (hn : a ≤ n) :
    (σ n).live x = true := by
  induction hn with
  | refl => exact hx
  | step hm ih =>
    rename_i m
    rcases h.2 m with e | ⟨c, e⟩
    · rw [e]; exact ih
    · rw [e]; exact (Kept.act (h.inv m) f c x ih).1

/-- While the version word is unchanged, published slots keep their keys. -/
theorem Exec.stay {f : Bool} {σ : Nat → St V} (h : Exec f σ) {a x : Nat} (hl : (σ a).live x = true)
    (hf : (σ a).hold x = .free) {n : Nat} (hn : a ≤ n) (hr : releases σ x n = releases σ x a) (hc : Calm ((σ n).hold x)) :
    ∀ j, a ≤ j → j ≤ n → Calm ((σ j).hold x) ∧ Stay ((σ j).hold x) ((σ j).leaf x).b ((σ n).hold x) ((σ n).leaf x).b := by
  have hu := (h.inv a).used x hl
  induction hn with
  | refl =>
    intro j h1 h2
    have : j = a := Nat.le_antisymm h2 h1
    subst this
    exact ⟨hc, Stay.refl _ _⟩
  | step hm ih =>
    rename_i m
    have hm : a ≤ m := hm
    have h1 := releases_le σ x hm
    have h2 : releases σ x (m + 1) = releases σ x m + _ := rfl
    have hnr : ¬ ((σ m).hold x ≠ .free ∧ (σ (m + 1)).hold x = .free) := by
      intro hh
      rw [if_pos hh] at h2
      have hr : releases σ x (m + 1) = releases σ x a := hr
      omega
    have hrm : releases σ x m = releases σ x a := by
      rw [if_neg hnr] at h2
      have hr : releases σ x (m + 1) = releases σ x a := hr
      omega
    obtain ⟨hum, hi, es, he, hw⟩ := h.words hu hf hm
    have hcm := Calm.back (NV.run_idle hi es) hw (h.used_step hum).2 hc hnr
    have hst : Stay ((σ m).hold x) ((σ m).leaf x).b ((σ (m + 1)).hold x) ((σ (m + 1)).leaf x).b := by
      rcases h.2 m with e | ⟨c, e⟩
      · rw [e]; exact Stay.refl _ _
      · rw [e]; exact stay_act (h.inv m) (h.convOk m) f c (h.live_mono hl hm) hcm
    intro j hj1 hj2
    by_cases ej : j = m + 1
    · subst ej; exact ⟨hc, Stay.refl _ _⟩
    · have := ih hrm hcm j hj1 (by omega)
      exact ⟨this.1, this.2.trans hst⟩

end Verif.Chain
