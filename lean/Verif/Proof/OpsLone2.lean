import Verif.Proof.OpsLone
import Verif.Proof.OpsEnd
set_option linter.unusedSimpArgs false
set_option linter.unusedVariables false
/-! The steps of an insert that is the only one under way. -/
namespace Verif.Ops
open Verif.Internode (upd upd_same upd_ne)
open Verif.Spec (Bytes)
open Verif.Perm (size get)
open Verif.Index (Al holds maxHops)
open Verif.Tree (searchForInsert leafWidth Leaf findAlt calcSplitPoint)
open Verif.Whole (Inside isLocked Frame WOk LAct onLeaves beside raw lact inIndex LOk IPc)
variable {V : Type} {fixed strict : Bool}

section
variable {s : St V} {d : Bytes} {v : V} {i L m : Nat}

/-- What is to be shown of a step that takes an insert to `p'`. -/
def Nearer (s : St V) (d : Bytes) (i : Nat) (w' : Whole.St V) (p' : Ph V) : Prop :=
  AimAt w' i p' ∧ Rank.lt (rank w' d i p') (rank s.w d i (s.ph i))

/-- The key of an insert in the index. -/
theorem Here.okey {w : Whole.St V} (h : Here w d L m i) {o : Index.Op Unit} (e : ((w.side L).ix.pc i).op = some o) : o = .insert (kat d m).ikey () := by
  rw [h.op] at e; injection e with e; exact e.symm

/-- The leaf that a descent comes to is the one of its key. -/
theorem owner_of {w : Whole.St V} (W : WOk w) (hu : w.f.up L = true) {k n : Nat} (B : Best (w.side L).ix.heap k n)
    (h0 : ((w.side L).ix.heap.node n).ht = 0) : Owner (w.f.layer L) k ((w.side L).leaf n) := by
  have O := W.ok L (W.basic.made L hu)
  obtain ⟨h1, h2, h3⟩ := O.down n B.al h0
  intro hn
  obtain ⟨g1, g2⟩ := O.C.link _ h1 hn
  obtain ⟨u1, u2, u3⟩ := O.up _ g1
  refine Classical.byContradiction fun g => ?_
  have := B.best _ u1 (by rw [h0]; exact u2) (by have := O.lo g1; rw [show ((w.side L).ix.heap.node _).lo = _ from this]; exact Nat.le_of_not_lt g)
  have e := O.lo g1
  have this : ((w.lay L).s.ix.heap.node ((w.lay L).s.num ((w.lay L).c.leaf ((w.lay L).s.leaf n)).nx)).lo ≤ ((w.lay L).s.ix.heap.node n).lo := this
  rw [e] at this
  omega

theorem lone_walk (K : Know s.w) (hp : s.ph i = .down L m) (P : Here s.w d L m i) (A : AimAt s.w i (.down L m))
    (T : Still (L == 0) (s.w.side L).ix.heap) (hf : falls ((s.w.side L).ix.pc i) = true) :
    Nearer s d i (Whole.act fixed strict s.w (.inLayer L (.walk i))) (.down L m) := by
  have hu := P.place.up
  have O := K.ok.ok L (K.ok.basic.made L hu)
  have hi : inIndex ((s.w.side L).ix.pc i) = true := by
    cases e : (s.w.side L).ix.pc i <;> rw [e] at hf <;> first | rfl | cases hf
  have eb : beside strict (L == 0) (s.w.lay L) (.walk i) = { s.w.side L with ix := Index.act strict (L == 0) (s.w.side L).ix (.run i) } := by
    simp only [beside]; exact if_pos hi
  obtain ⟨e1, e2, e3, e4⟩ := aim_step (pc := (s.w.side L).ix.pc i) (strict := strict) T (O.F.I.ok i) A.2.1 hf P.op
  have eh : ((Whole.act fixed strict s.w (.inLayer L (.walk i))).side L).ix.heap = (s.w.side L).ix.heap := by
    rw [post_side_same hu, eb]; exact e1
  have ep : ((Whole.act fixed strict s.w (.inLayer L (.walk i))).side L).ix.pc i = (Index.step strict (L == 0) (s.w.side L).ix.heap ((s.w.side L).ix.pc i)).2 := by
    rw [post_side_same hu, eb]; exact upd_same _ _ _
  have ns : ∀ o r n, (Index.step strict (L == 0) (s.w.side L).ix.heap ((s.w.side L).ix.pc i)).2 ≠ .sect o r n := by
    intro o r n g
    rcases e2 with g2 | ⟨_, _, _, _, g2⟩
    · rw [g] at g2; cases g2
    · rw [g] at g2; cases g2
  have ns' : ∀ o r n, (s.w.side L).ix.pc i ≠ .sect o r n := by
    intro o r n g; rw [g] at hf; cases hf
  refine ⟨⟨?_, ?_, ?_⟩, ?_⟩
  · rw [ep]
    rcases e2 with g2 | ⟨_, _, _, _, g2⟩
    · revert g2
      cases (Index.step strict (L == 0) (s.w.side L).ix.heap ((s.w.side L).ix.pc i)).2 <;> first | exact fun g => g | exact fun _ => rfl
    · rw [g2]; rfl
  · rw [eh, ep]; exact e3
  · intro o r n g; rw [ep] at g; exact absurd g (ns o r n)
  · rw [hp]
    unfold rank
    refine inLayer_lt (begins_post K.ok hu _ (by intro x lv y g; cases g)) ?_
    have r1 : spot (Whole.act fixed strict s.w (.inLayer L (.walk i))) L i = fall (s.w.side L).ix.heap (Index.step strict (L == 0) (s.w.side L).ix.heap ((s.w.side L).ix.pc i)).2 := by
      unfold spot
      rw [eh, ep]
      split
      · rename_i g; exact absurd g (ns _ _ _)
      · rfl
    have r2 : spot s.w L i = fall (s.w.side L).ix.heap ((s.w.side L).ix.pc i) := by
      unfold spot
      split
      · rename_i g; exact absurd g (ns' _ _ _)
      · rfl
    rw [r1, r2]
    exact e4

theorem lone_adv (K : Know s.w) (hp : s.ph i = .down L m) (P : Here s.w d L m i) (A : AimAt s.w i (.down L m)) {o : Index.Op Unit} {r g n : Nat}
    (e : (s.w.side L).ix.pc i = .adv o r g n) : Nearer s d i (Whole.act fixed strict s.w (.inLayer L (.enter i))) (.down L m) := by
  have hu := P.place.up
  have O := K.ok.ok L (K.ok.basic.made L hu)
  have hA := A.2.1
  rw [e] at hA
  obtain ⟨B, rfl⟩ := hA
  have eb : beside strict (L == 0) (s.w.lay L) (.enter i) = ((s.w.side L).goto i (.sect o r n)).move i (.adv maxHops ((s.w.side L).leaf n)) := by
    simp only [beside]
    rw [show (s.w.lay L).s = s.w.side L from rfl, e]
  have el : onLeaves (s.w.lay L) (.enter i) = none := by
    simp only [onLeaves]
    rw [show (s.w.lay L).s = s.w.side L from rfl, e]
  have ep : ((Whole.act fixed strict s.w (.inLayer L (.enter i))).side L).ix.pc i = .sect o r n := by
    rw [post_side_same hu, eb]; exact upd_same _ _ _
  have ei : ((Whole.act fixed strict s.w (.inLayer L (.enter i))).side L).ins i = .adv maxHops ((s.w.side L).leaf n) := by
    rw [post_side_same hu, eb]; exact upd_same _ _ _
  have ec : (Whole.act fixed strict s.w (.inLayer L (.enter i))).f.layer L = s.w.f.layer L := by
    rw [post_layer_same hu]; unfold lact; rw [el]; rfl
  refine ⟨⟨by rw [ep]; rfl, by rw [ep]; trivial, fun o' r' n' h => ?_⟩, ?_⟩
  · rw [ep] at h
    injection h with h1 h2 h3
    subst h1
    rw [ei, ec]
    have ok := O.F.I.ok i
    rw [show (s.w.lay L).s = s.w.side L from rfl, e] at ok
    exact ⟨by decide, owner_of K.ok hu B ok.2.2.1⟩
  · rw [hp]
    unfold rank
    refine inLayer_lt (by rw [ec]) ?_
    have r1 : spot (Whole.act fixed strict s.w (.inLayer L (.enter i))) L i = (4, 4) := by
      unfold spot; rw [ep, ei]; rfl
    have r2 : spot s.w L i = (5, 0) := by unfold spot; rw [e]; rfl
    rw [r1, r2]
    exact .inl (by decide)

/-- Steps up to the check under the lock. -/
theorem lone_sect (K : Know s.w) (hp : s.ph i = .down L m) (P : Here s.w d L m i) (A : AimAt s.w i (.down L m)) {o : Index.Op Unit} {r n : Nat}
    (e : (s.w.side L).ix.pc i = .sect o r n) (hn : (s.w.side L).owns i = none)
    (M : Chain.MarkOk (s.w.f.layer L)) (ne : Whole.act fixed strict s.w (.inLayer L (.step i)) ≠ s.w ∨ checked s.w L m i ≠ .down L m) :
    Nearer s d i (Whole.act fixed strict s.w (.inLayer L (.step i))) (checked s.w L m i) := by
  have hu := P.place.up
  have O := K.ok.ok L (K.ok.basic.made L hu)
  have hI := O.ins i o r n e
  have AI := A.2.2 o r n e
  have es : (s.w.lay L).s = s.w.side L := rfl
  have ec : (s.w.lay L).c = s.w.f.layer L := rfl
  rw [es] at hI
  -- a step that only moves the insert to `p`
  have go : ∀ p : IPc, checked s.w L m i = .down L m → beside strict (L == 0) (s.w.lay L) (.step i) = (s.w.side L).move i p →
      (∀ x lv y, onLeaves (s.w.lay L) (.step i) = some (.hold x) → (s.w.f.layer L).hold x ≠ .publish lv y) →
      AimIns (lact fixed strict (L == 0) (s.w.lay L) (.step i)).c o.key p → insRank p < insRank ((s.w.side L).ins i) →
      Nearer s d i (Whole.act fixed strict s.w (.inLayer L (.step i))) (checked s.w L m i) := by
    intro p hc hb hl ha hr
    have ep : ((Whole.act fixed strict s.w (.inLayer L (.step i))).side L).ix.pc i = .sect o r n := by
      rw [post_side_same hu, hb]; exact e
    have ei : ((Whole.act fixed strict s.w (.inLayer L (.step i))).side L).ins i = p := by
      rw [post_side_same hu, hb]; exact upd_same _ _ _
    rw [hc]
    refine ⟨⟨by rw [ep]; rfl, by rw [ep]; trivial, fun o' r' n' h => ?_⟩, ?_⟩
    · rw [ep] at h
      injection h with h1 h2 h3
      subst h1
      rw [ei, post_layer_same hu]; exact ha
    · rw [hp]
      unfold rank
      refine inLayer_lt (begins_post K.ok hu _ hl) ?_
      have r1 : spot (Whole.act fixed strict s.w (.inLayer L (.step i))) L i = (4, insRank p) := by
        unfold spot; rw [ep, ei]
      have r2 : spot s.w L i = (4, insRank ((s.w.side L).ins i)) := by unfold spot; rw [e]
      rw [r1, r2]
      exact .inr ⟨rfl, hr⟩
  have stay : onLeaves (s.w.lay L) (.step i) = none → beside strict (L == 0) (s.w.lay L) (.step i) = s.w.side L → checked s.w L m i = .down L m → False := by
    intro h1 h2 h3
    rcases ne with g | g
    · exact g (act_same _ h1 h2)
    · exact g h3
  cases ei : (s.w.side L).ins i with
  | adv h x =>
    rw [ei] at hI AI
    have hc : checked s.w L m i = .down L m := by simp only [checked, e, ei]
    have hl : onLeaves (s.w.lay L) (.step i) = none := by simp only [onLeaves]; rw [es, e, ei]
    have hb : beside strict (L == 0) (s.w.lay L) (.step i) = (if ((s.w.f.layer L).leaf x).mark then s.w.side L
      else if ((s.w.f.layer L).leaf x).nx = 0 then (s.w.side L).move i (.lock x) else (s.w.side L).move i (.bound (h - 1) x ((s.w.f.layer L).leaf x).nx)) := by
      simp only [beside]; rw [es, e, ei]; dsimp only; rw [if_neg (by have := AI.1; omega)]; rfl
    have hcc : (lact fixed strict (L == 0) (s.w.lay L) (.step i)).c = s.w.f.layer L := by unfold lact; rw [hl]; rfl
    have hlp : ∀ x lv y, onLeaves (s.w.lay L) (.step i) = some (.hold x) → (s.w.f.layer L).hold x ≠ .publish lv y := by rw [hl]; intro _ _ _ g; cases g
    cases em : ((s.w.f.layer L).leaf x).mark with
    | true =>
      rw [em] at hb
      exact (stay hl hb hc).elim
    | false =>
      rw [em] at hb
      simp only [Bool.false_eq_true, if_false] at hb
      by_cases h0 : ((s.w.f.layer L).leaf x).nx = 0
      · rw [if_pos h0] at hb
        exact go _ hc hb hlp (by rw [hcc]; exact AI.2) (by rw [ei]; show 2 < 4; omega)
      · rw [if_neg h0] at hb
        exact go _ hc hb hlp (by rw [hcc]; exact ⟨AI.2, rfl, h0⟩) (by rw [ei]; exact Nat.lt_succ_self 3)
  | bound h x z =>
    rw [ei] at hI AI
    obtain ⟨AI, rfl, h0⟩ := AI
    have hc : checked s.w L m i = .down L m := by simp only [checked, e, ei]
    have hl : onLeaves (s.w.lay L) (.step i) = none := by simp only [onLeaves]; rw [es, e, ei]
    have hb : beside strict (L == 0) (s.w.lay L) (.step i) = (s.w.side L).move i (.lock x) := by
      simp only [beside]; rw [es, e, ei]; dsimp only; rw [if_neg (by have := AI h0; rw [ec]; omega)]
    have hcc : (lact fixed strict (L == 0) (s.w.lay L) (.step i)).c = s.w.f.layer L := by unfold lact; rw [hl]; rfl
    exact go _ hc hb (by rw [hl]; intro _ _ _ g; cases g) (by rw [hcc]; exact AI) (by rw [ei]; exact Nat.lt_succ_self 2)
  | lock x =>
    rw [ei] at hI AI
    have hc : checked s.w L m i = .down L m := by simp only [checked, e, ei]
    by_cases hk : NV.lockable ((s.w.f.layer L).leaf x).word = true
    · have hl : onLeaves (s.w.lay L) (.step i) = some (.lock x) := by simp only [onLeaves]; rw [es, e, ei]; dsimp only; rw [ec, if_pos hk]
      have hb : beside strict (L == 0) (s.w.lay L) (.step i) = (s.w.side L).move i (.check x) := by
        simp only [beside]; rw [es, e, ei]; dsimp only; rw [ec, if_pos hk]
      refine go _ hc hb (by rw [hl]; intro _ _ _ g; cases g) ?_ (by rw [ei]; exact Nat.lt_succ_self 1)
      have hcc : (lact fixed strict (L == 0) (s.w.lay L) (.step i)).c = raw fixed (s.w.f.layer L) (.lock x) := by unfold lact; rw [hl]; rfl
      rw [hcc]
      have en : ∀ z, ((raw fixed (s.w.f.layer L) (.lock x)).leaf z).nx = ((s.w.f.layer L).leaf z).nx ∧
          ((raw fixed (s.w.f.layer L) (.lock x)).leaf z).lo = ((s.w.f.layer L).leaf z).lo := by
        intro z
        simp only [raw]
        by_cases g : z = x
        · subst g; rw [upd_same]; exact ⟨rfl, rfl⟩
        · rw [upd_ne _ _ _ g]; exact ⟨rfl, rfl⟩
      show Owner _ _ _
      unfold Owner
      rw [(en x).1, (en _).2]
      exact AI
    · have hl : onLeaves (s.w.lay L) (.step i) = none := by simp only [onLeaves]; rw [es, e, ei]; dsimp only; rw [ec, if_neg hk]
      have hb : beside strict (L == 0) (s.w.lay L) (.step i) = s.w.side L := by
        simp only [beside]; rw [es, e, ei]; dsimp only; rw [ec, if_neg hk]
      exact (stay hl hb hc).elim
  | check x =>
    rw [ei] at hI AI
    obtain ⟨i1, i2, i3⟩ := hI
    have i3 : isLocked ((s.w.f.layer L).hold x) = true := i3
    have hmk : ((s.w.f.layer L).leaf x).mark = false := by
      cases em : ((s.w.f.layer L).leaf x).mark with
      | false => rfl
      | true =>
        have := M x (O.C.used x i1) em
        cases eh : (s.w.f.layer L).hold x <;> rw [eh] at this i3 <;> first | (cases this; done) | (cases i3; done)
    have AI : Owner (s.w.f.layer L) o.key x := AI
    have hmv : Whole.moved (s.w.f.layer L) x o.key = false := by
      unfold Whole.moved
      rw [hmk, Bool.false_or]
      refine decide_eq_false ?_
      rintro ⟨g1, g2⟩
      have := AI g1
      omega
    have hc : checked s.w L m i = .down L m := by simp only [checked, e, ei, hmv]; rfl
    have hl : onLeaves (s.w.lay L) (.step i) = none := by simp only [onLeaves]; rw [es, e, ei]; dsimp only; rw [ec, hmv]; rfl
    have hb : beside strict (L == 0) (s.w.lay L) (.step i) = (s.w.side L).move i (.own x) := by
      simp only [beside]; rw [es, e, ei]; dsimp only; rw [ec, hmv]; rfl
    exact go _ hc hb (by rw [hl]; intro _ _ _ g; cases g) trivial (by rw [ei]; exact Nat.lt_succ_self 0)
  | own x =>
    unfold Whole.Side.owns at hn
    rw [e, ei] at hn
    cases hn

/-- What it does with the leaf it has locked. -/
theorem lone_decide (K : Know s.w) (hp : s.ph i = .down L m) {x : Nat} (P : Own s.w d L m i x) (hl : isLocked ((s.w.f.layer L).hold x) = true) (qs : List Nat)
    (P' : PutOk (after fixed strict s.w (decide s.w L m i x d v qs).1) d v i (decide s.w L m i x d v qs).2)
    (ne : after fixed strict s.w (decide s.w L m i x d v qs).1 ≠ s.w ∨ (decide s.w L m i x d v qs).2 ≠ .down L m) :
    Nearer s d i (after fixed strict s.w (decide s.w L m i x d v qs).1) (decide s.w L m i x d v qs).2 := by
  have hu := P.place.up
  obtain ⟨o, r, n, e1, e2⟩ := owns_upd_climb P.owns
  have split_ok : ∀ ik, PutOk (after fixed strict s.w (splitOr L m i x ((s.w.f.layer L).leaf x).b ik : Next V).1) d v i (splitOr L m i x ((s.w.f.layer L).leaf x).b ik).2 →
      Nearer s d i (after fixed strict s.w (splitOr L m i x ((s.w.f.layer L).leaf x).b ik : Next V).1) (splitOr L m i x ((s.w.f.layer L).leaf x).b ik).2 := by
    intro ik P'
    unfold splitOr at P' ⊢
    split
    · rename_i g; rw [g] at P'; exact absurd rfl P'.2.2
    · rename_i sp g
      refine ⟨trivial, ?_⟩
      rw [hp]
      unfold rank
      refine inLayer_lt (begins_post K.ok hu _ ?_) ?_
      · intro z lv y g
        simp only [onLeaves] at g
        rw [show (s.w.lay L).s.owns i = some x from P.owns] at g
        cases g
      · have r2 : spot s.w L i = (4, 0) := by unfold spot; rw [e1, e2]; rfl
        rw [r2]
        exact .inl (Nat.lt_succ_self 3)
  unfold decide at P' ne ⊢
  dsimp only at P' ne ⊢
  split
  · rename_i t g
    rw [g] at P' ne
    dsimp only at P' ne
    split
    · rename_i g2; exact absurd g2 (P.found_val K hl g).1
    · refine ⟨trivial, ?_⟩
      rw [hp]; exact zero_lt
    · rename_i q g2; exact absurd g2 ((P.found_val K hl g).2 q)
  · rename_i t g
    rw [g] at P' ne
    dsimp only at P' ne
    split
    · rename_i q g2
      rw [g2] at P'
      dsimp only at P'
      refine ⟨trivial, ?_⟩
      have := (P'.2.1 q (m + 1) rfl).lt
      rw [hp]
      refine Rank.l1 ?_
      omega
    · rename_i g1
      split at P'
      · rename_i q g2; exact absurd g2 (g1 q)
      · exact P'.elim
  · rename_i t g
    rw [g] at P' ne
    dsimp only at P' ne
    split
    · refine ⟨trivial, ?_⟩
      rw [hp]; exact zero_lt
    · rename_i g2
      rw [g2] at ne
      rcases ne with ne | ne
      · exact absurd rfl ne
      · exact absurd rfl ne
  · rename_i pos g
    rw [g] at P' ne
    dsimp only at P' ne
    split
    · rename_i g1
      rw [if_pos g1] at P'
      exact split_ok _ P'
    · rename_i g1
      rw [if_neg g1] at P'
      split
      · rename_i g2
        rw [if_pos g2] at P'
        split
        · refine ⟨trivial, ?_⟩
          rw [hp]; exact zero_lt
        · rename_i g3
          rw [g3] at P'
          exact split_ok _ P'
      · refine ⟨trivial, ?_⟩
        rw [hp]; exact zero_lt

/-- The stores of a split. -/
theorem lone_part (K : Know s.w) {x y : Nat} (hp : s.ph i = .part L m x y) (P : Own s.w d L m i x) (hn : ((s.w.f.layer L).hold x).new = some y) :
    Nearer s d i (Whole.act fixed strict s.w (.inLayer L (.hold i)))
      (match (s.w.f.layer L).hold x with | .publish _ _ => .prop L m x y 0 | _ => .part L m x y) := by
  have hu := P.place.up
  have O := K.ok.ok L (K.ok.basic.made L hu)
  have C := O.C
  have ec : (s.w.lay L).c = s.w.f.layer L := rfl
  rw [ec] at C
  have el := P.layer (fixed := fixed) (strict := strict) (hold_on P)
  have part : (∀ lv y, (s.w.f.layer L).hold x ≠ .publish lv y) → holdRank ((Chain.hstep (s.w.f.layer L) x).hold x) < holdRank ((s.w.f.layer L).hold x) →
      Nearer s d i (Whole.act fixed strict s.w (.inLayer L (.hold i))) (.part L m x y) := by
    intro h1 h2
    refine ⟨trivial, ?_⟩
    rw [hp]
    unfold rank
    refine inLayer_lt (begins_post K.ok hu _ ?_) ?_
    · intro z lv q g
      rw [hold_on P] at g
      cases g
      exact h1 lv q
    · rw [el]
      exact .inr ⟨rfl, h2⟩
  cases eh : (s.w.f.layer L).hold x with
  | take lv raw sp z j =>
    refine part (by rw [eh]; nofun) ?_
    simp only [Chain.hstep, eh]
    split
    · simp only [upd_same]; exact Nat.lt_succ_self _
    · simp only [upd_same]; show 5 < 200 + _ + 1; omega
  | clear lv raw sp z j =>
    refine part (by rw [eh]; nofun) ?_
    obtain ⟨_, hpm, _, _, _, _, _, h8, _⟩ := C.frozen x raw sp z (by rw [eh]; rfl)
    rw [eh] at h8
    have h8 : j + 1 ≤ size 5 raw := h8
    have h9 := hpm.size_le
    simp only [Chain.hstep, eh]
    split
    · simp only [upd_same]; show 200 + 2 * (40 - (j + 1)) + 1 < 200 + 2 * (40 - j); omega
    · simp only [upd_same]; show 200 + 2 * (40 - (j + 1)) + 1 < 200 + 2 * (40 - j); omega
  | unfreeze lv raw sp z =>
    refine part (by rw [eh]; nofun) ?_
    simp only [Chain.hstep, eh, upd_same]; exact Nat.lt_succ_self 4
  | mark lv z =>
    refine part (by rw [eh]; nofun) ?_
    simp only [Chain.hstep, eh, upd_same]; exact Nat.lt_succ_self 3
  | setNext lv z =>
    refine part (by rw [eh]; nofun) ?_
    simp only [Chain.hstep, eh, upd_same]; exact Nat.lt_succ_self 2
  | publish lv z =>
    refine ⟨trivial, ?_⟩
    rw [hp]
    show Rank.lt (inLayerRank _ d L m _) (inLayerRank _ d L m _)
    unfold inLayerRank
    obtain ⟨n1, _, n3, _, _, n6, n7⟩ := C.new x z (by rw [eh]; rfl)
    obtain ⟨o, r, n, e1, e2⟩ := owns_upd_climb P.owns
    have hI := O.ins i o r n e1
    rw [show (s.w.lay L).s.ins i = .own x from e2, ec] at hI
    obtain ⟨i1, i2, _, _⟩ := hI
    have ek : o = .insert (kat d m).ikey () := P.toHere.okey (by rw [e1]; rfl)
    rw [ek] at i2
    have i2 : ((s.w.f.layer L).leaf x).lo ≤ (kat d m).ikey := i2
    rw [el]
    refine span_lt (fun t => publish_begins C eh t) ?_ ?_
    · rintro ⟨w, hw, ew⟩
      obtain ⟨c1, c2⟩ := C.chain x w n1 hw (by omega)
      have := n7 c1
      omega
    · rintro t ⟨w, hw, ew⟩ ht
      obtain ⟨c1, c2⟩ := C.chain x w n1 hw (by omega)
      have := n7 c1
      omega
  | _ => rw [eh] at hn; cases hn

theorem spread_cases (w : Whole.St V) (L m i x y n : Nat) (S : turning ((w.side L).ix.pc i) = true) :
    (n = 0 ∧ spread w L m i x y n = (some (.inLayer L (.release y)), .prop L m x y 1)) ∨
    (n = 1 ∧ spread w L m i x y n = (some (.inLayer L (.unlock x)), .prop L m x y 2)) ∨
    (∃ o p, (w.side L).ix.pc i = .climb o p ∧ spread w L m i x y n = (none, .down L m)) ∨
    spread w L m i x y n = (none, .prop L m x y n) ∨
    ((∀ o p, (w.side L).ix.pc i ≠ .climb o p) ∧ spread w L m i x y n = (some (.inLayer L (.walk i)), .prop L m x y n)) := by
  unfold spread
  dsimp only
  split
  · rename_i g; exact .inl ⟨g.1, rfl⟩
  · split
    · rename_i g; exact .inr (.inl ⟨g.1, rfl⟩)
    · split
      · rename_i o p e
        split
        · exact .inr (.inr (.inl ⟨o, p, e, rfl⟩))
        · exact .inr (.inr (.inr (.inl rfl)))
      · rename_i e; rw [e] at S; cases S
      · rename_i g _; exact .inr (.inr (.inr (.inr ⟨g, rfl⟩)))

/-- The propagation of a split. -/
theorem lone_spread (K : Know s.w) {x y n : Nat} (hp : s.ph i = .prop L m x y n) (P : Here s.w d L m i) (S : turning ((s.w.side L).ix.pc i) = true)
    (F : ∀ z o e, ((after fixed strict s.w (spread s.w L m i x y n).1).side z).ix.pc i ≠ .fail o e)
    (ne : after fixed strict s.w (spread s.w L m i x y n).1 ≠ s.w ∨ (spread s.w L m i x y n).2 ≠ .prop L m x y n) :
    Nearer s d i (after fixed strict s.w (spread s.w L m i x y n).1) (spread s.w L m i x y n).2 := by
  have hu := P.place.up
  have ec : (s.w.lay L).c = s.w.f.layer L := rfl
  rcases spread_cases s.w L m i x y n S with ⟨g, e⟩ | ⟨g, e⟩ | ⟨o, q, g, e⟩ | e | ⟨g, e⟩ <;> rw [e] at F ne ⊢
  · refine ⟨trivial, ?_⟩
    rw [hp]
    unfold rank
    refine inLayer_lt (begins_post K.ok hu _ ?_) ?_
    · intro z lv q h
      simp only [onLeaves] at h
      split at h <;> cases h
    · have ep : ((Whole.act fixed strict s.w (.inLayer L (.release y))).side L).ix.pc i = (s.w.side L).ix.pc i := by
        rw [post_side_same hu]; rfl
      show Below (9, left (((Whole.act fixed strict s.w (.inLayer L (.release y))).side L).ix.pc i) + (2 - 1)) _
      rw [ep, g]
      exact .inr ⟨rfl, Nat.lt_succ_self _⟩
  · refine ⟨trivial, ?_⟩
    rw [hp]
    unfold rank
    refine inLayer_lt (begins_post K.ok hu _ ?_) ?_
    · intro z lv q h
      simp only [onLeaves] at h
      split at h
      · rename_i lv' e'
        split at h
        · cases h
          rw [ec] at e'
          rw [e']; nofun
        · cases h
      · cases h
    · have ep : ((Whole.act fixed strict s.w (.inLayer L (.unlock x))).side L).ix.pc i = (s.w.side L).ix.pc i := by
        rw [post_side_same hu]; rfl
      show Below (9, left (((Whole.act fixed strict s.w (.inLayer L (.unlock x))).side L).ix.pc i) + (2 - 2)) _
      rw [ep, g]
      exact .inr ⟨rfl, Nat.lt_succ_self _⟩
  · refine ⟨⟨by show onWay ((s.w.side L).ix.pc i) = true; rw [g]; rfl, by show Aim _ ((s.w.side L).ix.pc i); rw [g]; trivial, ?_⟩, ?_⟩
    · intro o' r' n' h
      have h : (s.w.side L).ix.pc i = _ := h
      rw [g] at h; cases h
    · rw [hp]
      unfold rank
      refine inLayer_lt rfl ?_
      have r1 : spot s.w L i = fall (s.w.side L).ix.heap (.climb o q) := by unfold spot; rw [g]
      show Below (spot s.w L i) _
      rw [r1]
      exact .inl (show 7 < 9 by omega)
  · rcases ne with ne | ne
    · exact absurd rfl ne
    · exact absurd rfl ne
  · have hi : inIndex ((s.w.side L).ix.pc i) = true := by
      cases e : (s.w.side L).ix.pc i <;> rw [e] at S <;> first | rfl | (cases S; done)
    have eb : beside strict (L == 0) (s.w.lay L) (.walk i) = { s.w.side L with ix := Index.act strict (L == 0) (s.w.side L).ix (.run i) } := by
      simp only [beside]; exact if_pos hi
    have ep : ((Whole.act fixed strict s.w (.inLayer L (.walk i))).side L).ix.pc i =
        (Index.step strict (L == 0) (s.w.side L).ix.heap ((s.w.side L).ix.pc i)).2 := by
      rw [post_side_same hu, eb]; exact upd_same _ _ _
    refine ⟨trivial, ?_⟩
    rw [hp]
    unfold rank
    refine inLayer_lt (begins_post K.ok hu _ (by intro _ _ _ h; cases h)) ?_
    show Below (9, left (((Whole.act fixed strict s.w (.inLayer L (.walk i))).side L).ix.pc i) + (2 - n)) _
    rw [ep]
    have hF : ∀ o e, (Index.step strict (L == 0) (s.w.side L).ix.heap ((s.w.side L).ix.pc i)).2 ≠ .fail o e := by
      intro o e; rw [← ep]; exact F L o e
    rcases left_step (strict := strict) (main := L == 0) (h := (s.w.side L).ix.heap) S g hF with h | h
    · exfalso
      rcases ne with ne | ne
      · refine ne (act_same _ rfl ?_)
        rw [eb]
        simp only [Index.act, h, Whole.upd_self]
      · exact ne rfl
    · exact .inr ⟨rfl, by show _ + _ < _ + _; omega⟩

/-- Every step of an insert that changes something brings it nearer to its end. -/
theorem lone_step {y : Nat} {qs : List Nat} (K : Know s.w) (ho : s.op i = .insert d v) (hb : (s.ph i).over = false) (P : PutOk s.w d v i (s.ph i))
    (P' : PutOk (after fixed strict s.w (next s i y qs).1) d v i (next s i y qs).2) (S : Spread s.w i (s.ph i)) (Lk : LockOk s.w i (s.ph i))
    (A : AimAt s.w i (s.ph i)) (T : ∀ L m, s.ph i = .down L m → s.w.f.up L = true → holds ((s.w.side L).ix.pc i) = [] → Still (L == 0) (s.w.side L).ix.heap)
    (M : ∀ L, s.w.f.made L = true → Chain.MarkOk (s.w.f.layer L))
    (F : ∀ L o e, ((after fixed strict s.w (next s i y qs).1).side L).ix.pc i ≠ .fail o e)
    (ne : after fixed strict s.w (next s i y qs).1 ≠ s.w ∨ (next s i y qs).2 ≠ s.ph i) :
    Nearer s d i (after fixed strict s.w (next s i y qs).1) (next s i y qs).2 := by
  have stay : ∀ {p : Ph V}, s.ph i = p → next s i y qs = (none, p) → False := by
    intro p h1 h2
    rw [h2, h1] at ne
    rcases ne with ne | ne
    · exact ne rfl
    · exact ne rfl
  cases hp : s.ph i with
  | idle => rw [hp] at hb; cases hb
  | ret r => rw [hp] at hb; cases hb
  | err => rw [hp] at P; exact P.elim
  | read L m => rw [hp] at P; exact P.elim
  | undo L m x => rw [hp] at A; exact A.elim
  | enter L m =>
    rw [hp] at P
    have en : next s i y qs = (some (.inLayer L (.call i (keyAt (s.op i) m) (s.op i).put)), .down L m) := by unfold next; rw [hp]
    rw [en]
    have hu := P.2.up
    have eb : beside strict (L == 0) (s.w.lay L) (.call i (keyAt (s.op i) m) (s.op i).put) =
        { s.w.side L with key := upd (s.w.side L).key i (keyAt (s.op i) m)
                          ix := { (s.w.side L).ix with pc := upd (s.w.side L).ix.pc i (.climb (.insert (kat d m).ikey ()) (s.w.side L).ix.heap.root) } } := by
      rw [ho]
      simp only [beside]
      rw [show (s.w.lay L).s = s.w.side L from rfl]
      rcases out_cases (P.1 L).out with e | ⟨o, r, e⟩
      · rw [e]; dsimp only; unfold Index.act; dsimp only; rw [e]; rfl
      · rw [e]; dsimp only; unfold Index.act; dsimp only; rw [e]; rfl
    have ep : ((Whole.act fixed strict s.w (.inLayer L (.call i (keyAt (s.op i) m) (s.op i).put))).side L).ix.pc i =
        .climb (.insert (kat d m).ikey ()) (s.w.side L).ix.heap.root := by
      rw [post_side_same hu, eb]; exact upd_same _ _ _
    refine ⟨⟨?_, ?_, ?_⟩, ?_⟩
    · show onWay (((Whole.act fixed strict s.w _).side L).ix.pc i) = true
      rw [ep]; rfl
    · show Aim _ (((Whole.act fixed strict s.w _).side L).ix.pc i)
      rw [ep]; trivial
    · intro o r n g
      have g : ((Whole.act fixed strict s.w _).side L).ix.pc i = _ := g
      rw [ep] at g; cases g
    · rw [hp]
      unfold rank
      refine inLayer_lt (begins_post K.ok hu _ (by intro _ _ _ g; cases g)) ?_
      show Below (spot (Whole.act fixed strict s.w _) L i) _
      unfold spot
      rw [ep]
      exact .inl (Nat.lt_succ_self 7)
  | down L m =>
    rw [hp] at P A
    have en : next s i y qs = down s.w (s.op i) L m i qs := by unfold next; rw [hp]
    obtain ⟨P, Pl⟩ := P
    have hu := P.place.up
    by_cases hf : falls ((s.w.side L).ix.pc i) = true
    · have en' : next s i y qs = (some (.inLayer L (.walk i)), .down L m) := by
        rw [en]
        unfold down
        cases e : (s.w.side L).ix.pc i <;> rw [e] at hf <;> first | rfl | (cases hf; done)
      rw [en']
      refine lone_walk K hp P A (T L m hp hu ?_) hf
      cases e : (s.w.side L).ix.pc i <;> rw [e] at hf <;> first | rfl | (cases hf; done)
    · cases e : (s.w.side L).ix.pc i with
      | adv o r g n =>
        have en' : next s i y qs = (some (.inLayer L (.enter i)), .down L m) := by rw [en]; unfold down; rw [e]
        rw [en']
        exact lone_adv K hp P A e
      | sect o r n =>
        cases eo : (s.w.side L).owns i with
        | none =>
          have en' : next s i y qs = (some (.inLayer L (.step i)), checked s.w L m i) := by rw [en, ho]; unfold down; rw [e]; dsimp only; rw [eo]
          rw [en'] at ne ⊢
          rw [hp] at ne
          exact lone_sect K hp P A e eo (M L (K.ok.basic.made L hu)) ne
        | some x =>
          have en' : next s i y qs = decide s.w L m i x d v qs := by rw [en, ho]; unfold down; rw [e]; dsimp only; rw [eo]
          rw [en'] at ne P' ⊢
          rw [hp] at ne
          exact lone_decide K hp ⟨P, eo⟩ (Pl x eo) qs P' ne
      | _ =>
        have := A.1
        rw [e] at this hf
        exact absurd this hf
  | store L m x t pos off n =>
    rw [hp] at P
    obtain ⟨_, _, _, _, _, hn, _⟩ := P
    unfold next; rw [ho, hp]; dsimp only
    split
    · refine ⟨trivial, ?_⟩
      rw [hp]
      exact zero_lt' (x := (5, 10 - (n + 1))) (y := (5, 10 - n)) (.inr ⟨rfl, by show 10 - (n + 1) < 10 - n; omega⟩)
    · refine ⟨trivial, ?_⟩
      rw [hp]
      exact zero_lt' (x := (4, 0)) (y := (5, 10 - n)) (.inl (Nat.lt_succ_self 4))
  | publish L m x pos off =>
    unfold next; rw [hp]; dsimp only
    refine ⟨trivial, ?_⟩
    rw [hp]
    exact zero_lt' (x := (2, 0)) (y := (4, 0)) (.inl (show 2 < 4 by omega))
  | conv L m x =>
    rw [hp] at P
    obtain ⟨lv, t, q, st, j, P, eh, hst, _⟩ := P
    unfold next; rw [hp]; dsimp only
    rw [eh]
    dsimp only
    split
    · rename_i h4
      refine ⟨trivial, ?_⟩
      rw [hp]
      have el := P.layer (fixed := fixed) (strict := strict) (hold_on P)
      have eh' : ((Whole.act fixed strict s.w (.inLayer L (.hold i))).f.layer L).hold x = .conv lv t q (st + 1) := by
        rw [el]
        simp only [raw, Chain.act, Chain.hstep, eh, upd_same, Chain.convNext, if_pos h4]
      show Rank.lt (0, 0, 0, 0, 3, holdRank (((Whole.act fixed strict s.w (.inLayer L (.hold i))).f.layer L).hold x)) (0, 0, 0, 0, 3, holdRank ((s.w.f.layer L).hold x))
      rw [eh', eh]
      exact zero_lt' (x := (3, 10 - (st + 1))) (y := (3, 10 - st)) (.inr ⟨rfl, by show 10 - (st + 1) < 10 - st; omega⟩)
    · refine ⟨trivial, ?_⟩
      rw [hp]
      exact zero_lt' (x := (2, 0)) (y := (3, _)) (.inl (Nat.lt_succ_self 2))
  | freeze L m x sp =>
    rw [hp] at P
    obtain ⟨P, _⟩ := P
    have en : next s i y qs = if (s.w.f.layer L).used y = false ∧ y ≠ 0 ∧ ((s.w.f.layer L).leaf x).b.ikey (get 5 ((s.w.f.layer L).leaf x).b.perm (sp - 1)) <
        ((s.w.f.layer L).leaf x).b.ikey (get 5 ((s.w.f.layer L).leaf x).b.perm sp) then
      (some (.inLayer L (.freeze i sp y)), .part L m x y) else (none, .freeze L m x sp) := by unfold next; rw [hp]
    by_cases g : (s.w.f.layer L).used y = false ∧ y ≠ 0 ∧ ((s.w.f.layer L).leaf x).b.ikey (get 5 ((s.w.f.layer L).leaf x).b.perm (sp - 1)) <
        ((s.w.f.layer L).leaf x).b.ikey (get 5 ((s.w.f.layer L).leaf x).b.perm sp)
    · rw [if_pos g] at en
      rw [en]
      refine ⟨trivial, ?_⟩
      rw [hp]
      unfold rank
      refine inLayer_lt (begins_post K.ok P.place.up _ ?_) (.inr ⟨rfl, ?_⟩)
      · intro z lv q h
        simp only [onLeaves] at h
        rw [show (s.w.lay L).s.owns i = some x from P.owns] at h
        cases h
      · show holdRank _ < 1000
        unfold holdRank
        split <;> omega
    · rw [if_neg g] at en
      exact (stay hp en).elim
  | part L m x z =>
    rw [hp] at P
    have en : next s i y qs = (some (.inLayer L (.hold i)), match (s.w.f.layer L).hold x with
      | .publish _ _ => .prop L m x z 0
      | _ => .part L m x z) := by unfold next; rw [hp]; dsimp only; cases (s.w.f.layer L).hold x <;> rfl
    rw [en]
    exact lone_part K hp P.1 P.2
  | prop L m x z n =>
    rw [hp] at P S Lk
    have en : next s i y qs = spread s.w L m i x z n := by unfold next; rw [hp]
    rw [en] at ne P' F ⊢
    rw [hp] at ne
    exact lone_spread K hp P.1 S.1 F ne
  | close L x a =>
    unfold next; rw [hp]; dsimp only
    refine ⟨trivial, ?_⟩
    rw [hp] at P ⊢
    rcases P.2.2 with e | ⟨r, e⟩ <;> subst e
    · exact zero_lt' (x := (1, 0)) (y := (2, 0)) (.inl (Nat.lt_succ_self 1))
    · exact zero_lt' (x := (1, 0)) (y := (2, 0)) (.inl (Nat.lt_succ_self 1))
  | drop L x a =>
    unfold next; rw [hp]; dsimp only
    rw [hp] at P
    cases a with
    | layer q m =>
      refine ⟨trivial, ?_⟩
      rw [hp]
      exact Rank.l1 (Nat.lt_succ_self _)
    | count => 
      refine ⟨trivial, ?_⟩
      rw [hp]
      exact zero_lt' (x := (0, 1)) (y := (1, 0)) (.inl (Nat.lt_succ_self 0))
    | ret r =>
      refine ⟨trivial, ?_⟩
      rw [hp]
      exact zero_lt' (x := (0, 0)) (y := (1, 0)) (.inl (Nat.lt_succ_self 0))
    | err => exact absurd rfl P.2.2
  | count =>
    unfold next; rw [hp]; dsimp only
    refine ⟨trivial, ?_⟩
    rw [hp]
    exact zero_lt' (x := (0, 0)) (y := (0, 1)) (.inr ⟨rfl, Nat.lt_succ_self 0⟩)
end
end Verif.Ops
