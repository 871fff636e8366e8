import Verif.Proof.ChainWord
set_option linter.unusedSimpArgs false
set_option linter.unusedVariables false
/-! A next pointer is marked only while the leaf is being split. -/
namespace Verif.Chain
open Verif.Internode (upd upd_same upd_ne)
variable {V : Type}

/-- The next pointer of the leaf is marked. -/
def marking : HPc → Bool
  | .setNext _ _ | .publish _ _ => true
  | _ => false

/-- The marked next pointers are those of leaves that are being split. -/
def MarkOk (s : St V) : Prop := ∀ x, s.used x = true → (s.leaf x).mark = true → marking (s.hold x) = true

theorem MarkOk.act {s : St V} (h : MarkOk s) (I : Inv s) (f : Bool) (a : Act V) : MarkOk (act f s a) := by
  have one : ∀ (z : Nat) (l : LeafSt V) (h' : HPc), (l.mark = true → marking h' = true) →
      ∀ x, s.used x = true → (upd s.leaf z l x).mark = true → marking (upd s.hold z h' x) = true := by
    intro z l h' hz x hu hm
    by_cases e : x = z
    · subst e; rw [upd_same] at hm ⊢; exact hz hm
    · rw [upd_ne _ _ _ e] at hm ⊢; exact h x hu hm
  have keep : ∀ (z : Nat) (l : LeafSt V), l.mark = (s.leaf z).mark →
      ∀ x, s.used x = true → (upd s.leaf z l x).mark = true → marking (s.hold x) = true := by
    intro z l hz x hu hm
    by_cases e : x = z
    · subst e; rw [upd_same, hz] at hm; exact h x hu hm
    · rw [upd_ne _ _ _ e] at hm; exact h x hu hm
  have same : ∀ (z : Nat) (h' : HPc), ((s.leaf z).mark = true → marking h' = true) →
      ∀ x, s.used x = true → (s.leaf x).mark = true → marking (upd s.hold z h' x) = true := by
    intro z h' hz x hu hm
    by_cases e : x = z
    · subst e; rw [upd_same]; exact hz hm
    · rw [upd_ne _ _ _ e]; exact h x hu hm
  have off : ∀ z, s.hold z ≠ .free → marking (s.hold z) = false → ¬ (s.leaf z).mark = true := by
    intro z h1 h2 h3
    rw [h z (I.busy z h1) h3] at h2; cases h2
  have two : ∀ (y z : Nat) (ly l : LeafSt V) (h' : HPc), ly.mark = (s.leaf y).mark → (l.mark = true → marking h' = true) →
      ∀ x, s.used x = true → (upd (upd s.leaf y ly) z l x).mark = true → marking (upd s.hold z h' x) = true := by
    intro y z ly l h' hy hz x hu hm
    by_cases e : x = z
    · subst e; rw [upd_same] at hm ⊢; exact hz hm
    · rw [upd_ne _ _ _ e] at hm ⊢
      by_cases ey : x = y
      · subst ey; rw [upd_same, hy] at hm; exact h x hu hm
      · rw [upd_ne _ _ _ ey] at hm; exact h x hu hm
  intro x
  cases a with
  | lock z =>
    simp only [Chain.act]
    split
    · rename_i g
      refine one z _ _ (fun hm => ?_) x
      have := h z (I.used z g.1) hm
      have hf : s.hold z ≠ .free := by intro e; rw [e] at this; cases this
      have hl := (I.word z hf).1
      have := g.2
      rw [NV.lockable_iff] at this
      have := of_decide_eq_true this
      rw [NV.isLocked_iff, this] at hl
      cases hl
    · exact h x
  | write z t ik kl c sf =>
    simp only [Chain.act]
    split
    · split
      · (refine keep z _ ?_ x; rfl)
      · exact h x
    · exact h x
  | publish z pos off =>
    simp only [Chain.act]
    split
    · split
      · (refine keep z _ ?_ x; rfl)
      · exact h x
    · exact h x
  | update z t v =>
    simp only [Chain.act]
    split
    · (refine keep z _ ?_ x; rfl)
    · exact h x
  | convert z t q =>
    simp only [Chain.act]
    split
    · rename_i lv e
      split
      · (refine one z _ _ ?_ x; exact fun hm => absurd hm (off z (by rw [e]; nofun) (by rw [e]; rfl)))
      · exact h x
    · exact h x
  | giveUp z =>
    simp only [Chain.act]
    split
    · rename_i lv e
      exact same z _ (fun hm => absurd hm (off z (by rw [e]; nofun) (by rw [e]; rfl))) x
    · exact h x
  | markSplit z =>
    simp only [Chain.act]
    split
    · rename_i lv e
      (refine one z _ _ ?_ x; exact fun hm => absurd hm (off z (by rw [e]; nofun) (by rw [e]; rfl)))
    · exact h x
  | freeze z sp y =>
    simp only [Chain.act]
    split
    · rename_i lv e
      split
      · rename_i g
        intro hu hm
        simp only at hu hm ⊢
        by_cases ez : x = z
        · subst ez
          rw [upd_same] at hm
          exact absurd hm (off x (by rw [e]; nofun) (by rw [e]; rfl))
        · by_cases ey : x = y
          · subst ey
            rw [upd_ne _ _ _ ez, upd_same] at hm; cases hm
          · rw [upd_ne _ _ _ ey] at hu
            rw [upd_ne _ _ _ ez, upd_ne _ _ _ ey] at hm ⊢
            exact h x hu hm
      · exact h x
    · exact h x
  | hold z =>
    simp only [Chain.act, Chain.hstep]
    split
    · rename_i lv raw sp y j e
      split
      · (refine two y z _ _ _ ?_ ?_ x <;> [rfl; skip]; exact fun hm => absurd hm (off z (by rw [e]; nofun) (by rw [e]; rfl)))
      · exact same z _ (fun hm => absurd hm (off z (by rw [e]; nofun) (by rw [e]; rfl))) x
    · rename_i lv raw sp y j e
      split
      · (refine one z _ _ ?_ x; exact fun hm => absurd hm (off z (by rw [e]; nofun) (by rw [e]; rfl)))
      · exact same z _ (fun hm => absurd hm (off z (by rw [e]; nofun) (by rw [e]; rfl))) x
    · rename_i lv raw sp y e
      (refine two y z _ _ _ ?_ ?_ x <;> [rfl; skip]; exact fun hm => absurd hm (off z (by rw [e]; nofun) (by rw [e]; rfl)))
    · exact one z _ _ (fun _ => rfl) x
    · rename_i lv y e
      intro hu hm
      have hm : (upd s.leaf y { s.leaf y with nx := (s.leaf z).nx } x).mark = true := hm
      have hm' : (s.leaf x).mark = true := by
        by_cases ey : x = y
        · subst ey; rw [upd_same] at hm; exact hm
        · rw [upd_ne _ _ _ ey] at hm; exact hm
      exact same z _ (fun _ => rfl) x hu hm'
    · (refine one z _ _ ?_ x; exact fun g => nomatch g)
    · rename_i lv e
      (refine one z _ _ ?_ x; exact fun hm => absurd hm (off z (by rw [e]; nofun) (by rw [e]; rfl)))
    · rename_i lv t q st e
      (refine one z _ _ ?_ x; exact fun hm => absurd hm (off z (by rw [e]; nofun) (by rw [e]; rfl)))
    · exact h x
  | release y =>
    simp only [Chain.act]
    split
    · rename_i e
      split
      · (refine one y _ _ ?_ x; exact fun hm => absurd hm (off y (by rw [e]; nofun) (by rw [e]; rfl)))
      · exact h x
    · exact h x
  | start i z k =>
    simp only [Chain.act]
    split <;> (try split) <;> exact h x
  | read i =>
    simp only [Chain.act]
    exact h x

theorem Exec.marks {f : Bool} {σ : Nat → St V} (h : Exec f σ) : ∀ n, MarkOk (σ n)
  | 0 => by
    intro x hx hm
    rw [(h.1.used x).mp hx, h.1.mark] at hm; cases hm
  | n + 1 => by
    rcases h.2 n with e | ⟨a, e⟩
    · rw [e]; exact h.marks n
    · rw [e]; exact (h.marks n).act (h.inv n) f a

end Verif.Chain
