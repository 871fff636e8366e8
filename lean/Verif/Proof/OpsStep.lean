import Verif.Proof.OpsTools
set_option linter.unusedSimpArgs false
set_option linter.unusedVariables false
/-! Every step of a call keeps what is known about it, and an insert stores its key once. -/
namespace Verif.Ops
open Verif.Internode (upd upd_same upd_ne)
open Verif.Perm (size get)
open Verif.Spec (Bytes)
open Verif.Tree (Leaf Cell searchKlx searchForInsert)
open Verif.Forest (Under keyIn)
open Verif.Whole (Inside isLocked Frame WOk LAct onLeaves beside raw lact onForest inIndex)
variable {V : Type} {fixed strict : Bool}

/-- What is known about the tree. -/
structure Know (s : Whole.St V) : Prop where
  ok : WOk s
  tidy : ∀ L, s.f.made L = true → Chain.Tidy (s.f.layer L)
  leads : ∀ d L m q, Where s d L m → Chain.Holds (s.f.layer L) (keyIn (s.f.pre L) d) (.descend q) → Where s d q (m + 1)
  rel : ∀ L x lv t q st j, s.f.up L = true → (s.f.layer L).hold x = .conv lv t q st → s.f.job q = some j → Forest.Rel s.f L x t j.key
  fine : ∀ L i o e, (s.side L).ix.pc i ≠ .fail o e

/-- What an insert is going to answer, once it has stored. -/
def After.lin : After V → Option (Option V)
  | .count => some none
  | .ret r => some r
  | _ => none

/-- What a call is going to answer, once an insert has stored. -/
def Ph.lin : Ph V → Option (Option V)
  | .close _ _ a | .drop _ _ a => a.lin
  | .count => some none
  | .ret r => some r
  | _ => none

/-- The tree after a step. -/
def after (fixed strict : Bool) (s : Whole.St V) : Option (Whole.Act V) → Whole.St V
  | none => s
  | some a => Whole.act fixed strict s a

/-- What an insert does next when it has found this value. -/
def fate : Option V → After V
  | none => .count
  | some w => .ret (some w)

theorem fate_lin (r : Option V) : (fate r).lin = some r := by cases r <;> rfl

/-- A step of an insert of `d` and `v` that goes from `p` to `p'` stores nothing, or it stores just the key. -/
def Effect (s : Whole.St V) (d : Bytes) (v : V) (a : Option (Whole.Act V)) (p p' : Ph V) : Prop :=
  ((∀ d', wr s a d' = none) ∧ p'.lin = p.lin) ∨
    (p.lin = none ∧ (∀ d', wr s a d' = if d' = d then some v else none) ∧
      ∃ b L x, a.bind (onForest s) = some b ∧ p' = .close L x (fate (Forest.returned s.f b)))

theorem Effect.mute (s : Whole.St V) (d : Bytes) (v : V) (L : Nat) {a : LAct V} (h : mute a = true) {p p' : Ph V} (hp : p'.lin = p.lin) :
    Effect s d v (some (.inLayer L a)) p p' := .inl ⟨wr_mute s L h, hp⟩

theorem Effect.none (s : Whole.St V) (d : Bytes) (v : V) {p p' : Ph V} (hp : p'.lin = p.lin) : Effect s d v none p p' := .inl ⟨fun _ => rfl, hp⟩

section
variable {s : Whole.St V} {d : Bytes} {v : V} {i : Nat}

theorem quiet_cases {c : Chain.CPc V} (h : Quiet c) : c = .idle ∨ ∃ k r w, c = .done k r w := by
  cases c with
  | idle => exact .inl rfl
  | done k r w => exact .inr ⟨k, r, w, rfl⟩
  | _ => cases h

theorem out_cases {L : Nat} (h : ¬ Inside s L i) : (s.side L).ix.pc i = .idle ∨ ∃ o r, (s.side L).ix.pc i = .done o r := by
  unfold Inside at h
  cases e : (s.side L).ix.pc i with
  | idle => exact .inl rfl
  | done o r => exact .inr ⟨o, r, rfl⟩
  | _ => exact absurd ⟨by rw [e]; nofun, by rw [e]; nofun⟩ h

/-- Entering a layer. -/
theorem put_enter (W : WOk s) {L m : Nat} (h : PutOk s d v i (.enter L m)) :
    PutOk (Whole.act fixed strict s (.inLayer L (.call i (kat d m) true))) d v i (.down L m) := by
  obtain ⟨hh, hw⟩ := h
  have hu := hw.up
  have e : beside strict (L == 0) (s.lay L) (.call i (kat d m) true) =
      { s.side L with key := upd (s.side L).key i (kat d m), ix := { (s.side L).ix with pc := upd (s.side L).ix.pc i (.climb (.insert (kat d m).ikey ()) (s.side L).ix.heap.root) } } := by
    simp only [beside, Index.act]
    rcases out_cases (hh L).out with g | ⟨o, r, g⟩
    · rw [show (s.lay L).s.ix.pc i = .idle from g]; rfl
    · rw [show (s.lay L).s.ix.pc i = .done o r from g]; rfl
  have epc : ((Whole.act fixed strict s (.inLayer L (.call i (kat d m) true))).side L).ix.pc i = .climb (.insert (kat d m).ikey ()) (s.side L).ix.heap.root := by
    rw [post_side_same hu, e]; exact upd_same _ _ _
  refine ⟨⟨hw.post hu _, fun z hz => (hh z).post hu _ hz, ?_, ?_, ?_, ?_, ?_⟩, ?_⟩
  · rw [post_layer_same hu, lact_rd _ _ _ _ rfl]; exact (hh L).rd (W.basic.made L hu)
  · unfold Inside; rw [epc]; exact ⟨nofun, nofun⟩
  · rw [post_side_same hu, e]; exact upd_same _ _ _
  · rw [epc]; rfl
  · rw [epc]; nofun
  · intro x g
    obtain ⟨o, r, n, g, _⟩ := owns_upd_climb g
    rw [epc] at g; cases g

/-- A step in the internodes. -/
theorem put_walk {L m : Nat} (h : Here s d L m i) (hi : inIndex ((s.side L).ix.pc i) = true) :
    Here (Whole.act fixed strict s (.inLayer L (.walk i))) d L m i ∧ ((Whole.act fixed strict s (.inLayer L (.walk i))).side L).owns i = none := by
  have hu := h.place.up
  have e : beside strict (L == 0) (s.lay L) (.walk i) = { s.side L with ix := Index.act strict (L == 0) (s.side L).ix (.run i) } := by
    simp only [beside]
    rw [show (s.lay L).s = s.side L from rfl, if_pos hi]
  have epc : (Index.act strict (L == 0) (s.side L).ix (.run i)).pc i = (Index.step strict (L == 0) (s.side L).ix.heap ((s.side L).ix.pc i)).2 := upd_same _ _ _
  have eop := Index.step_op (strict := strict) (main := L == 0) (s := (s.side L).ix.heap) hi
  refine ⟨h.post rfl e ?_ rfl ?_ ?_, ?_⟩
  · show (Index.act strict (L == 0) (s.side L).ix (.run i)).pc i ≠ _ ∧ ∀ o x, (Index.act strict (L == 0) (s.side L).ix (.run i)).pc i ≠ _
    rw [epc]; exact step_inside hi h.inside.1 h.inside.2
  · show ((Index.act strict (L == 0) (s.side L).ix (.run i)).pc i).op = _
    rw [epc]; exact eop
  · intro o' n g
    have g : (Index.act strict (L == 0) (s.side L).ix (.run i)).pc i = _ := g
    rw [epc] at g
    obtain ⟨t, ht⟩ := step_look hi g
    rw [g, h.op, ht] at eop
    cases eop
  · cases g : ((Whole.act fixed strict s (.inLayer L (.walk i))).side L).owns i with
    | none => rfl
    | some x =>
      obtain ⟨o, r, n, g, _⟩ := owns_upd_climb g
      rw [post_side_same hu, e] at g
      have g : (Index.act strict (L == 0) (s.side L).ix (.run i)).pc i = _ := g
      rw [epc] at g
      exact absurd g (Index.step_sect hi)

/-- From the internodes to the leaves. -/
theorem put_adv {L m : Nat} (h : Here s d L m i) {o : Index.Op Unit} {r k n : Nat} (hp : (s.side L).ix.pc i = .adv o r k n) :
    PutOk (Whole.act fixed strict s (.inLayer L (.enter i))) d v i (.down L m) := by
  have hu := h.place.up
  have e : beside strict (L == 0) (s.lay L) (.enter i) = ((s.side L).goto i (.sect o r n)).move i (.adv k ((s.side L).leaf n)) := by
    simp only [beside]
    rw [show (s.lay L).s = s.side L from rfl, hp]
  have e' : onLeaves (s.lay L) (.enter i) = none := by
    simp only [onLeaves]
    rw [show (s.lay L).s = s.side L from rfl, hp]
  have epc : ((Whole.act fixed strict s (.inLayer L (.enter i))).side L).ix.pc i = .sect o r n := by
    rw [post_side_same hu, e]; exact upd_same _ _ _
  have ein : ((Whole.act fixed strict s (.inLayer L (.enter i))).side L).ins i = .adv k ((s.side L).leaf n) := by
    rw [post_side_same hu, e]; exact upd_same _ _ _
  refine ⟨⟨h.place.post hu _, fun z hz => (h.away z hz).post hu _ hz, ?_, ?_, ?_, ?_, ?_⟩, ?_⟩
  · rw [post_layer_same hu]
    unfold lact; rw [e']; exact h.rd
  · unfold Inside; rw [epc]; exact ⟨nofun, nofun⟩
  · rw [post_side_same hu, e]; exact h.key
  · rw [epc]; have := h.op; rw [hp] at this; exact this
  · rw [epc]; nofun
  · intro x g
    obtain ⟨_, _, _, _, g⟩ := owns_upd_climb g
    rw [ein] at g; cases g

/-- A step to the lock of the leaf. -/
theorem put_step (W : WOk s) {L m : Nat} (h : Here s d L m i) (ho : (s.side L).owns i = none) :
    PutOk (Whole.act fixed strict s (.inLayer L (.step i))) d v i (.down L m) := by
  have hu := h.place.up
  have K := W.ok L (W.basic.made L hu)
  obtain ⟨s', e⟩ : ∃ s', beside strict (L == 0) (s.lay L) (.step i) = s' := ⟨_, rfl⟩
  have key : (∃ o, (s'.ix.pc i).op = some o ∧ ((s.side L).ix.pc i).op = some o) ∧ s'.key = (s.side L).key ∧
      (s'.ix.pc i = (s.side L).ix.pc i ∨ ∃ o r, s'.ix.pc i = .climb o r) ∧
      ∀ x, s'.owns i = some x → isLocked ((lact fixed strict (L == 0) (s.lay L) (.step i)).c.hold x) = true := by
    have hop := h.op
    have stay : (∃ o, ((s.side L).ix.pc i).op = some o ∧ ((s.side L).ix.pc i).op = some o) := ⟨_, hop, hop⟩
    simp only [beside] at e
    rw [show (s.lay L).s = s.side L from rfl] at e
    split at e
    · rename_i o r n k x g1 g2
      split at e
      · subst e
        refine ⟨⟨o, ?_, by rw [g1]; rfl⟩, rfl, .inr ⟨o, _, upd_same _ _ _⟩, fun x g => ?_⟩
        · show (upd (s.side L).ix.pc i _ i).op = _; rw [upd_same]; rfl
        · obtain ⟨_, _, _, g, _⟩ := owns_upd_climb g
          rw [show ((s.side L).goto i (.climb o _)).ix.pc i = .climb o _ from upd_same _ _ _] at g; cases g
      · split at e
        · subst e
          exact ⟨stay, rfl, .inl rfl, fun x g => by rw [ho] at g; cases g⟩
        · split at e
          · subst e
            refine ⟨stay, rfl, .inl rfl, fun x' g => ?_⟩
            obtain ⟨_, _, _, _, g⟩ := owns_upd_climb g
            rw [show ((s.side L).move i (.lock x)).ins i = .lock x from upd_same _ _ _] at g; cases g
          · subst e
            refine ⟨stay, rfl, .inl rfl, fun x' g => ?_⟩
            obtain ⟨_, _, _, _, g⟩ := owns_upd_climb g
            rw [show ((s.side L).move i _).ins i = _ from upd_same _ _ _] at g; cases g
    · rename_i o r n k x z g1 g2
      split at e
      · subst e
        refine ⟨stay, rfl, .inl rfl, fun x' g => ?_⟩
        obtain ⟨_, _, _, _, g⟩ := owns_upd_climb g
        rw [show ((s.side L).move i _).ins i = _ from upd_same _ _ _] at g; cases g
      · subst e
        refine ⟨stay, rfl, .inl rfl, fun x' g => ?_⟩
        obtain ⟨_, _, _, _, g⟩ := owns_upd_climb g
        rw [show ((s.side L).move i _).ins i = _ from upd_same _ _ _] at g; cases g
    · rename_i o r n x g1 g2
      split at e
      · subst e
        refine ⟨stay, rfl, .inl rfl, fun x' g => ?_⟩
        obtain ⟨_, _, _, _, g⟩ := owns_upd_climb g
        rw [show ((s.side L).move i _).ins i = _ from upd_same _ _ _] at g; cases g
      · subst e
        exact ⟨stay, rfl, .inl rfl, fun x g => by rw [ho] at g; cases g⟩
    · rename_i o r n x g1 g2
      split at e
      · subst e
        refine ⟨⟨o, ?_, by rw [g1]; rfl⟩, rfl, .inr ⟨o, r, upd_same _ _ _⟩, fun x g => ?_⟩
        · show (upd (s.side L).ix.pc i _ i).op = _; rw [upd_same]; rfl
        · obtain ⟨_, _, _, g, _⟩ := owns_upd_climb g
          rw [show ((s.side L).goto i (.climb o r)).ix.pc i = .climb o r from upd_same _ _ _] at g; cases g
      · rename_i hmv
        subst e
        refine ⟨stay, rfl, .inl rfl, fun x' g => ?_⟩
        obtain ⟨_, _, _, _, g⟩ := owns_upd_climb g
        rw [show ((s.side L).move i _).ins i = _ from upd_same _ _ _] at g
        cases g
        have q := K.ins i o r n g1
        rw [show (s.lay L).s.ins i = .check x from g2] at q
        have e' : onLeaves (s.lay L) (.step i) = none := by
          simp only [onLeaves]
          rw [show (s.lay L).s = s.side L from rfl, g1, g2]
          simp only
          rw [if_neg hmv]
        unfold lact; rw [e']; exact q.2.2
    · subst e
      exact ⟨stay, rfl, .inl rfl, fun x g => by rw [ho] at g; cases g⟩
  obtain ⟨⟨o, k1, k2⟩, k3, k4, k5⟩ := key
  refine ⟨h.post rfl e ?_ (by rw [k3]) (by rw [k1, k2]) ?_, ?_⟩
  · rcases k4 with g | ⟨_, _, g⟩
    · rw [g]; exact h.inside
    · rw [g]; exact ⟨nofun, nofun⟩
  · rcases k4 with g | ⟨_, _, g⟩
    · rw [g]; exact h.look
    · rw [g]; nofun
  · intro x g
    rw [post_side_same hu, e] at g
    rw [post_layer_same hu]; exact k5 x g

/-- The leaf is left. -/
theorem put_finish {L m x : Nat} (h : Own s d L m i x) (hl : isLocked ((s.f.layer L).hold x) = true) (z : Nat) :
    Home (Whole.act fixed strict s (.inLayer L (.finish i))) z i := by
  have hu := h.place.up
  by_cases hz : z = L
  · subst hz
    obtain ⟨o, r, n, g1, g2⟩ := owns_upd_climb h.owns
    have e : beside strict (z == 0) (s.lay z) (.finish i) = (s.side z).goto i (.done o none) := by
      simp only [beside]
      rw [show (s.lay z).s = s.side z from rfl, g1, g2]
      simp only
      rw [show (s.lay z).c = s.f.layer z from rfl, if_pos hl]
    refine ⟨fun g => ?_, fun _ => ?_⟩
    · refine g.2 o none ?_
      rw [post_side_same hu, e]; exact upd_same _ _ _
    · rw [post_layer_same hu, lact_rd _ _ _ _ rfl]; exact h.rd
  · exact (h.away z hz).post hu _ hz
end

end Verif.Ops
