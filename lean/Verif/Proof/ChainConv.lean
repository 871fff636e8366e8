import Verif.Proof.ChainRaceStep
import Verif.Spec.Chain
set_option linter.unusedSimpArgs false
set_option linter.unusedVariables false
/-!
# Conversions of values into sublayers
-/
namespace Verif.Chain
open Verif.Internode (upd upd_same upd_ne)
open Verif.Perm (size get)
open Verif.Tree (Leaf Cell)
open Verif.Cas (In not_lockable)
variable {V : Type}

/-- The slot that is being converted. -/
def HPc.trans : HPc → Option Nat
  | .conv _ t _ _ => some t
  | _ => none

theorem trans_iff {h : HPc} {t : Nat} : h.trans = some t ↔ ∃ lv q st, h = .conv lv t q st := by
  constructor
  · intro e
    cases h <;> simp only [HPc.trans] at e <;> cases e
    exact ⟨_, _, _, rfl⟩
  · rintro ⟨lv, q, st, rfl⟩; rfl

theorem trans_new {h : HPc} {t : Nat} (e : h.trans = some t) : h.new = none := by
  obtain ⟨lv, q, st, rfl⟩ := trans_iff.1 e; rfl

/-- What a step does to the holder and the contents of a leaf, as far as conversions are concerned. -/
inductive CStep : HPc → Leaf V → HPc → Leaf V → Prop
  | same (h b) : CStep h b h b
  | other (h b h' b') (e : h.trans = none) (e' : h'.trans = none) : CStep h b h' b'
  | begin (lv b t q) (hi : In b.perm t) (hk : b.klx t = 64) : CStep (.locked lv) b (convNext lv t q 0) (convStore b t q 0)
  | next (lv b t q st) : CStep (.conv lv t q st) b (convNext lv t q st) (convStore b t q st)

theorem cstep_act {s : St V} (h : Inv s) (f : Bool) (a : Act V) (x : Nat) :
    CStep (s.hold x) (s.leaf x).b ((act f s a).hold x) ((act f s a).leaf x).b := by
  have one : ∀ (z : Nat) (l : LeafSt V) (h' : HPc), CStep (s.hold z) (s.leaf z).b h' l.b →
      CStep (s.hold x) (s.leaf x).b (upd s.hold z h' x) (upd s.leaf z l x).b := by
    intro z l h' hw
    rw [upd_if, upd_if]
    split
    · rename_i e; subst e; exact hw
    · exact .same _ _
  have two : ∀ (z y : Nat) (l l' : LeafSt V) (h' : HPc), (s.hold z).new = some y → h'.trans = none →
      CStep (s.hold x) (s.leaf x).b (upd s.hold z h' x) (upd (upd s.leaf y l') z l x).b := by
    intro z y l l' h' hy ht
    have hyn := (h.new z y hy).2.2.2.2.1
    rw [upd_if, upd_if]
    split
    · rename_i e; subst e
      refine .other _ _ _ _ ?_ ht
      cases e : (s.hold x).trans with
      | none => rfl
      | some t => rw [trans_new e] at hy; cases hy
    · rw [upd_if]; split
      · rename_i e; subst e; rw [hyn]; exact .other _ _ _ _ rfl rfl
      · exact .same _ _
  have keep : ∀ (z : Nat) (l : LeafSt V), (s.hold z).trans = none →
      CStep (s.hold x) (s.leaf x).b (s.hold x) (upd s.leaf z l x).b := by
    intro z l hw
    rw [upd_if]
    split
    · rename_i e; subst e; exact .other _ _ _ _ hw hw
    · exact .same _ _
  have holdOnly : ∀ (z : Nat) (h' : HPc), (s.hold z).trans = none → h'.trans = none →
      CStep (s.hold x) (s.leaf x).b (upd s.hold z h' x) (s.leaf x).b := by
    intro z h' h1 h2
    rw [upd_if]
    split
    · rename_i e; subst e; exact .other _ _ _ _ h1 h2
    · exact .same _ _
  have refl : CStep (s.hold x) (s.leaf x).b (s.hold x) (s.leaf x).b := .same _ _
  cases a with
  | lock z =>
    unfold act; simp only; split
    · rename_i hc
      have hd : NV.isDirty (s.leaf z).word = false := by
        cases hd : NV.isDirty (s.leaf z).word with
        | false => rfl
        | true => rw [not_lockable hd] at hc; cases hc.2
      exact one z { s.leaf z with word := _ } _ (by rw [h.free_of_clean hd]; exact .other _ _ _ _ rfl rfl)
    · exact refl
  | write z t ik kl c sf =>
    unfold act; simp only; split
    · rename_i e
      split
      · exact keep z { s.leaf z with b := _ } (by rw [e]; rfl)
      · exact refl
    · exact refl
  | publish z pos off =>
    unfold act; simp only; split
    · rename_i e
      split
      · exact keep z { s.leaf z with b := _ } (by rw [e]; rfl)
      · exact refl
    · exact refl
  | update z t v =>
    unfold act; simp only; split
    · rename_i e _
      exact keep z { s.leaf z with b := _ } (by rw [e]; rfl)
    · exact refl
  | convert z t q =>
    unfold act; simp only; split
    · rename_i lv e
      split
      · rename_i hc
        refine one z { s.leaf z with b := _ } _ ?_
        rw [e]
        refine .begin lv _ t q ?_ hc.2
        by_contra hh
        have hc1 := hc.1
        rw [freeSlot_iff _ _ |>.2 hh] at hc1; cases hc1
      · exact refl
    · exact refl
  | giveUp z =>
    unfold act; simp only; split
    · rename_i lv e
      exact holdOnly z _ (by rw [e]; rfl) rfl
    · exact refl
  | markSplit z =>
    unfold act; simp only; split
    · rename_i lv e
      exact one z { s.leaf z with word := _ } _ (by rw [e]; exact .other _ _ _ _ rfl rfl)
    · exact refl
  | freeze z sp y =>
    unfold act; simp only; split
    · rename_i lv e
      split
      · rename_i hc
        show CStep _ _ (upd (upd s.hold y _) z _ x) (upd (upd s.leaf y _) z _ x).b
        have hfy : s.hold y = .free := by
          by_contra hh
          rw [h.busy y hh] at hc; cases hc.2.2.2.1
        by_cases ez : x = z
        · subst ez; rw [upd_same, upd_same, e]; exact .other _ _ _ _ rfl rfl
        · rw [upd_ne _ _ _ ez, upd_ne _ _ _ ez]
          by_cases ey : x = y
          · subst ey; rw [upd_same, upd_same, hfy]; exact .other _ _ _ _ rfl rfl
          · rw [upd_ne _ _ _ ey, upd_ne _ _ _ ey]; exact refl
      · exact refl
    · exact refl
  | hold z =>
    show CStep _ _ ((hstep s z).hold x) ((hstep s z).leaf x).b
    unfold hstep
    split
    · rename_i lv raw sp y j e
      split
      · exact two z y _ _ _ (by rw [e]; rfl) rfl
      · exact holdOnly z _ (by rw [e]; rfl) rfl
    · rename_i lv raw sp y j e
      split
      · exact one z _ _ (by rw [e]; exact .other _ _ _ _ rfl rfl)
      · exact holdOnly z _ (by rw [e]; rfl) rfl
    · rename_i lv raw sp y e
      exact two z y _ _ _ (by rw [e]; rfl) rfl
    · rename_i lv y e
      exact one z _ _ (by rw [e]; exact .other _ _ _ _ rfl rfl)
    · rename_i lv y e
      show CStep _ _ (upd s.hold z _ x) (upd s.leaf y _ x).b
      have hw : (upd s.leaf y { s.leaf y with nx := (s.leaf z).nx } x).b = (s.leaf x).b := by
        rw [upd_if]; split
        · rename_i e; rw [e]
        · rfl
      rw [hw]
      exact holdOnly z _ (by rw [e]; rfl) rfl
    · rename_i lv y e
      exact one z _ _ (by rw [e]; exact .other _ _ _ _ rfl rfl)
    · rename_i lv e
      exact one z { s.leaf z with word := _ } _ (by rw [e]; exact .other _ _ _ _ rfl rfl)
    · rename_i lv t q st e
      exact one z { s.leaf z with b := _ } _ (by rw [e]; exact .next _ _ _ _ _)
    · exact refl
  | release y =>
    unfold act; simp only; split
    · rename_i e
      split
      · exact one y { s.leaf y with word := _ } _ (by rw [e]; exact .other _ _ _ _ rfl rfl)
      · exact refl
    · exact refl
  | start i z k =>
    unfold act; simp only; split
    · split <;> exact refl
    · split <;> exact refl
    · exact refl
  | read i => exact refl

/-- The slot of a conversion that has made `st` stores. -/
structure ConvAt (b : Leaf V) (t st : Nat) : Prop where
  pub : In b.perm t
  first : 1 ≤ st
  last : st ≤ 4
  cell : b.cell t = .null
  ksuf : 2 ≤ st → b.ksuf t = none
  klx : b.klx t = if st ≤ 2 then 64 else if st = 3 then 0 else 128

/-- Every conversion is in order. -/
def ConvOk (s : St V) : Prop := ∀ x lv t q st, s.hold x = .conv lv t q st → ConvAt (s.leaf x).b t st

theorem convNext_conv {lv lv' : NV.W} {t t' q q' st st' : Nat} (e : convNext lv t q st = .conv lv' t' q' st') :
    lv' = lv ∧ t' = t ∧ q' = q ∧ st' = st + 1 ∧ st < 4 := by
  unfold convNext at e
  split at e
  · rename_i h; cases e; exact ⟨rfl, rfl, rfl, rfl, h⟩
  · cases e

theorem ConvOk.step {s s' : St V} (h : ConvOk s)
    (hs : ∀ x, CStep (s.hold x) (s.leaf x).b (s'.hold x) (s'.leaf x).b) : ConvOk s' := by
  intro x lv t q st e
  have hc := hs x
  revert hc
  have h0 := h x
  generalize s.hold x = h1 at h0
  generalize (s.leaf x).b = b1 at h0
  generalize s'.hold x = h2 at e
  generalize (s'.leaf x).b = b2
  intro hc
  cases hc with
  | same => exact h0 lv t q st e
  | other => rename_i h1 h2; rw [e] at h2; cases h2
  | begin =>
    rename_i lv' t' q' hi hk
    obtain ⟨rfl, rfl, rfl, rfl, _⟩ := convNext_conv e
    rcases convStore_cases b1 t q 0 with ⟨_, e⟩ | ⟨h, _⟩ | ⟨h, _⟩ | ⟨h, _⟩ | ⟨h, _⟩ | ⟨h, _⟩
    · rw [e]
      exact ⟨hi, by omega, by omega, upd_same _ _ _, by omega, by rw [if_pos (by omega)]; exact hk⟩
    all_goals omega
  | next =>
    rename_i lv' t' q' st'
    obtain ⟨rfl, rfl, rfl, rfl, hlt⟩ := convNext_conv e
    obtain ⟨c1, c2, c3, c4, c5, c6⟩ := h0 lv t q st' rfl
    rcases convStore_cases b1 t q st' with ⟨h, _⟩ | ⟨h, e⟩ | ⟨h, e⟩ | ⟨h, e⟩ | ⟨h, _⟩ | ⟨h, _⟩
    · omega
    · rw [e]; subst h
      exact ⟨c1, by omega, by omega, c4, fun _ => upd_same _ _ _, by rw [if_pos (by omega)]; rw [if_pos (by omega)] at c6; exact c6⟩
    · rw [e]; subst h
      exact ⟨c1, by omega, by omega, c4, fun _ => c5 (by omega), upd_same _ _ _⟩
    · rw [e]; subst h
      exact ⟨c1, by omega, by omega, c4, fun _ => c5 (by omega), upd_same _ _ _⟩
    all_goals omega

end Verif.Chain
