import Verif.Proof.OpsStage
set_option linter.unusedSimpArgs false
set_option linter.unusedVariables false
set_option linter.unusedTactic false
set_option linter.unreachableTactic false
/-! While the bounds, the links and the internodes stay as they are, no insert goes on its way down for ever. -/
namespace Verif.Ops
open Verif.Internode (upd upd_same upd_ne)
open Verif.Spec (Bytes)
open Verif.Index (Al holds PcOk inodeWidth)
open Verif.Whole (Inside isLocked Frame WOk LAct onLeaves beside raw lact inIndex LOk IPc)
variable {V : Type} {fixed strict main : Bool}

/-- The version that a descent has read is the one that is there. -/
def Fresh (h : Index.Heap Unit) : Index.Pc Unit → Prop
  | .nk _ _ p w => w = ((h.node p).vs, (h.node p).vi)
  | .cmp _ _ p w a b => w = ((h.node p).vs, (h.node p).vi) ∧ a ≤ b ∧ b ≤ (h.node p).arr.nkeys
  | .chld _ _ p w i => w = ((h.node p).vs, (h.node p).vi) ∧ i ≤ (h.node p).arr.nkeys
  | .chk _ _ p w c => w = ((h.node p).vs, (h.node p).vi) ∧ (h.node c).ht + 1 = (h.node p).ht
  | .chk2 _ _ _ _ => False
  | _ => True

/-- Steps until a descent begins anew at the latest. -/
def aged (h : Index.Heap Unit) : Index.Pc Unit → Nat
  | .nk _ _ p _ => 4 + (h.node p).arr.nkeys
  | .cmp _ _ _ _ a b => 3 + (b - a)
  | .chld _ _ _ _ _ => 2
  | .chk _ _ _ _ _ => 1
  | _ => 0

section
variable {h : Index.Heap Unit}

theorem fresh_step (S : Still main h) {pc : Index.Pc Unit} (ok : PcOk main h pc) (A : Fresh h pc) (hs : slides pc = true) (hc : ∀ o p, pc ≠ .climb o p) {t : Nat}
    (ho : pc.op = some (.insert t ())) :
    (∃ o r g l, (Index.step strict main h pc).2 = .adv o r g l) ∨
      (slides (Index.step strict main h pc).2 = true ∧ Fresh h (Index.step strict main h pc).2 ∧ (fall h (Index.step strict main h pc).2).2 < (fall h pc).2) := by
  cases pc with
  | climb o p => exact absurd rfl (hc o p)
  | stab o r p =>
    simp only [Index.step, S.free p ok.2, Bool.false_eq_true, if_false]
    split
    · cases o with
      | get t => cases ho
      | insert t v => exact .inl ⟨_, _, _, _, rfl⟩
    · refine .inr ⟨rfl, rfl, ?_⟩
      show _ + 80 < _ + 90
      omega
  | nk o r p w =>
    refine .inr ⟨rfl, ⟨A, Nat.zero_le _, Nat.le_refl _⟩, ?_⟩
    have := S.H.nk p ok.2.1
    rw [← S.H.same p ok.2.1 (fun g => g)] at this
    have e : inodeWidth = 15 := rfl
    show _ + 10 + (_ - 0) < _ + 80
    omega
  | cmp o r p w a b =>
    obtain ⟨h1, h2, h3⟩ := A
    simp only [Index.step]
    split
    · split
      · refine .inr ⟨rfl, ⟨h1, by omega, by omega⟩, ?_⟩
        show _ + 10 + _ < _ + 10 + _; omega
      · split
        · refine .inr ⟨rfl, ⟨h1, by omega⟩, ?_⟩
          show _ + 5 < _ + 10 + _; omega
        · refine .inr ⟨rfl, ⟨h1, by omega, by omega⟩, ?_⟩
          show _ + 10 + _ < _ + 10 + _; omega
    · refine .inr ⟨rfl, ⟨h1, by omega⟩, ?_⟩
      show _ + 5 < _ + 10 + _; omega
  | chld o r p w i =>
    obtain ⟨h1, h2⟩ := A
    rw [S.H.same p ok.2.1 (fun g => g)] at h2
    obtain ⟨k1, k2, k3⟩ := S.H.kid p ok.2.1 ok.2.2 i h2
    rw [← S.H.same p ok.2.1 (fun g => g)] at k1 k3
    have hc : (h.node p).arr.child i ≠ 0 := Nat.pos_iff_ne_zero.1 k1.1
    simp only [Index.step, hc, if_false]
    refine .inr ⟨rfl, ⟨h1, k3⟩, ?_⟩
    show _ + 2 < _ + 5; omega
  | chk o r p w c =>
    obtain ⟨h1, h2⟩ := A
    have hs : (h.node p).splitting = false := by
      cases e : (h.node p).splitting with
      | false => rfl
      | true => have := S.H.spl p ok.2.1 e; rw [S.free p ok.2.1] at this; cases this
    have : Index.changed strict (h.node p) w = false := by
      rw [h1]; simp [Index.changed, hs, S.free p ok.2.1]
    simp only [Index.step, this, Bool.false_eq_true, if_false]
    refine .inr ⟨rfl, trivial, ?_⟩
    show _ + 90 < _ + 2; omega
  | chk2 o r p w => exact A.elim
  | _ => cases hs

theorem aged_step {pc : Index.Pc Unit} (A : ¬ Fresh h pc) (hs : slides pc = true) :
    slides (Index.step strict main h pc).2 = true ∧ (Fresh h (Index.step strict main h pc).2 ∨ aged h (Index.step strict main h pc).2 < aged h pc) := by
  cases pc with
  | climb o p => exact absurd trivial A
  | stab o r p => exact absurd trivial A
  | nk o r p w => exact ⟨rfl, .inr (by show 3 + (_ - 0) < 4 + _; omega)⟩
  | cmp o r p w a b =>
    simp only [Index.step]
    split
    · split
      · exact ⟨rfl, .inr (by show 3 + _ < 3 + _; omega)⟩
      · split
        · exact ⟨rfl, .inr (by show 2 < 3 + _; omega)⟩
        · exact ⟨rfl, .inr (by show 3 + _ < 3 + _; omega)⟩
    · exact ⟨rfl, .inr (by show 2 < 3 + _; omega)⟩
  | chld o r p w i =>
    simp only [Index.step]
    split
    · exact ⟨rfl, .inl trivial⟩
    · exact ⟨rfl, .inr (Nat.lt_succ_self 1)⟩
  | chk o r p w c =>
    simp only [Index.step]
    split
    · exact ⟨rfl, .inr (Nat.lt_succ_self 0)⟩
    · exact ⟨rfl, .inl trivial⟩
  | chk2 o r p w =>
    simp only [Index.step]
    split
    · exact ⟨rfl, .inl trivial⟩
    · exact ⟨rfl, .inl trivial⟩
  | _ => cases hs
end

/-- Steps among the leaves until the check under the lock. -/
def insLeft : IPc → Nat
  | .adv h _ => 2 * h + 4
  | .bound h _ _ => 2 * h + 5
  | .lock _ => 2
  | .check _ => 1
  | .own _ => 0

/-- Where an insert is that is perhaps not on the way to the leaf of its key. -/
noncomputable def stray (w : Whole.St V) (i : Nat) : Ph V → Nat × Nat
  | .down L _ =>
    match (w.side L).ix.pc i with
    | .sect _ _ _ => (1, insLeft ((w.side L).ins i))
    | .adv _ _ _ _ => (2, 0)
    | p => by classical exact if Fresh (w.side L).ix.heap p then (3, (fall (w.side L).ix.heap p).2) else (4, aged (w.side L).ix.heap p)
  | _ => (0, 0)

/-- The steps of an insert on its way down as long as nobody moves a bound, a link or an internode. -/
noncomputable def spin (w : Whole.St V) (d : Bytes) (i : Nat) (p : Ph V) : Nat × Rank := by
  classical exact if AimAt w i p then (0, rank w d i p) else (1, 0, 0, 0, 0, (stray w i p).1, (stray w i p).2)

/-- Less. -/
def spinLt : Nat × Rank → Nat × Rank → Prop := WellFoundedRelation.rel

theorem spinLt_wf : WellFounded spinLt := WellFoundedRelation.wf

theorem spin_lt {w w' : Whole.St V} {d : Bytes} {i : Nat} {p p' : Ph V} (h1 : AimAt w i p → AimAt w' i p' ∧ Rank.lt (rank w' d i p') (rank w d i p))
    (h2 : ¬ AimAt w i p → AimAt w' i p' ∨ Below (stray w' i p') (stray w i p)) : spinLt (spin w' d i p') (spin w d i p) := by
  unfold spin
  by_cases g : AimAt w i p
  · obtain ⟨k1, k2⟩ := h1 g
    rw [if_pos g, if_pos k1]
    exact Prod.Lex.right _ k2
  · rw [if_neg g]
    by_cases g' : AimAt w' i p'
    · rw [if_pos g']
      exact Prod.Lex.left _ _ Nat.zero_lt_one
    · rw [if_neg g']
      rcases h2 g with h | h
      · exact absurd h g'
      · exact Prod.Lex.right _ (Rank.l5 h)

theorem stray_slides {w : Whole.St V} {i L m : Nat} (h : slides ((w.side L).ix.pc i) = true) :
    (Fresh (w.side L).ix.heap ((w.side L).ix.pc i) → stray w i (.down L m) = (3, (fall (w.side L).ix.heap ((w.side L).ix.pc i)).2)) ∧
    (¬ Fresh (w.side L).ix.heap ((w.side L).ix.pc i) → stray w i (.down L m) = (4, aged (w.side L).ix.heap ((w.side L).ix.pc i))) := by
  unfold stray
  dsimp only
  split
  · rename_i e; rw [e] at h; cases h
  · rename_i e; rw [e] at h; cases h
  · exact ⟨fun g => if_pos g, fun g => if_neg g⟩

section
variable {s : St V} {d : Bytes} {v : V} {i L m : Nat}

/-- Every step on the way down that changes something uses up one of the steps that are left. -/
theorem spin_own {y : Nat} {qs : List Nat} (K : Know s.w) (ho : s.op i = .insert d v) (hb : (s.ph i).over = false) (P : PutOk s.w d v i (s.ph i))
    (P' : PutOk (after fixed strict s.w (next s i y qs).1) d v i (next s i y qs).2) (S : Spread s.w i (s.ph i)) (Lk : LockOk s.w i (s.ph i))
    (H : WayOk s.w i (s.ph i)) (T : ∀ L, s.w.f.up L = true → Still (L == 0) (s.w.side L).ix.heap)
    (M : ∀ L, s.w.f.made L = true → Chain.MarkOk (s.w.f.layer L))
    (F : ∀ L o e, ((after fixed strict s.w (next s i y qs).1).side L).ix.pc i ≠ .fail o e)
    (hr : (s.ph i).roams = true) (hr' : (next s i y qs).2.roams = true)
    (ne : after fixed strict s.w (next s i y qs).1 ≠ s.w ∨ (next s i y qs).2 ≠ s.ph i) :
    spinLt (spin (after fixed strict s.w (next s i y qs).1) d i (next s i y qs).2) (spin s.w d i (s.ph i)) := by
  refine spin_lt (fun A => lone_step K ho hb P P' S Lk A (fun L _ _ hu _ => T L hu) M F ne) fun A => ?_
  cases hp : s.ph i with
  | enter L m => rw [hp] at A; exact absurd trivial A
  | undo L m x =>
    rw [hp] at P H
    have en : next s i y qs = (some (.inLayer L (.unlock x)), .down L m) := by unfold next; rw [hp]
    rw [en]
    obtain ⟨o, r, H⟩ := H
    left
    have e : ((after fixed strict s.w (some (.inLayer L (.unlock x)))).side L).ix.pc i = .climb o r := by
      show ((Whole.act fixed strict s.w _).side L).ix.pc i = _
      rw [post_side_same P.1.place.up]; exact H
    refine ⟨by rw [e]; rfl, by rw [e]; trivial, fun o' r' n' g => ?_⟩
    rw [e] at g; cases g
  | down L m =>
    rw [hp] at P H A
    obtain ⟨P, Pl⟩ := P
    have H : way ((s.w.side L).ix.pc i) = true := H
    have hu := P.place.up
    have O := K.ok.ok L (K.ok.basic.made L hu)
    have en : next s i y qs = down s.w (s.op i) L m i qs := by unfold next; rw [hp]
    have climbs : ∀ {w' : Whole.St V} {o : Index.Op Unit} {r : Nat}, (w'.side L).ix.pc i = .climb o r → AimAt w' i (.down L m) := by
      intro w' o r e
      refine ⟨by rw [e]; rfl, by rw [e]; trivial, fun o' r' n' g => ?_⟩
      rw [e] at g; cases g
    by_cases hs : slides ((s.w.side L).ix.pc i) = true
    · have en' : next s i y qs = (some (.inLayer L (.walk i)), .down L m) := by
        rw [en]
        unfold down
        cases e : (s.w.side L).ix.pc i <;> rw [e] at hs <;> first | rfl | (cases hs; done)
      rw [en']
      right
      show Below (stray (Whole.act fixed strict s.w (.inLayer L (.walk i))) i (.down L m)) _
      obtain ⟨e1, e2⟩ := walk_side (fixed := fixed) (strict := strict) (s := s) hu (slides_in hs)
      rw [(slides_step hs P.op).1] at e2
      have hc : ∀ o p, (s.w.side L).ix.pc i ≠ .climb o p := fun o p e => A (climbs e)
      by_cases hf : Fresh (s.w.side L).ix.heap ((s.w.side L).ix.pc i)
      · rw [(stray_slides (m := m) hs).1 hf]
        rcases fresh_step (strict := strict) (T L hu) (O.F.I.ok i) hf hs hc P.op with ⟨o, r, g, l, h⟩ | ⟨h1, h2, h3⟩
        · rw [show (s.w.lay L).s.ix.pc i = (s.w.side L).ix.pc i from rfl, ← e1] at h
          left
          unfold stray
          dsimp only
          rw [h]
          exact Nat.lt_succ_self 2
        · rw [show (s.w.lay L).s.ix.pc i = (s.w.side L).ix.pc i from rfl, ← e1] at h1 h2 h3
          rw [← e2] at h2 h3
          rw [(stray_slides (m := m) h1).1 h2]
          refine .inr ⟨rfl, ?_⟩
          show _ < (fall (s.w.side L).ix.heap _).2
          rw [← e2]; exact h3
      · rw [(stray_slides (m := m) hs).2 hf]
        obtain ⟨h1, h2⟩ := aged_step (strict := strict) (main := L == 0) hf hs
        rw [← e1] at h1 h2
        rw [← e2] at h2
        by_cases hf' : Fresh ((Whole.act fixed strict s.w (.inLayer L (.walk i))).side L).ix.heap (((Whole.act fixed strict s.w (.inLayer L (.walk i))).side L).ix.pc i)
        · rw [(stray_slides (m := m) h1).1 hf']
          exact .inl (Nat.lt_succ_self 3)
        · rw [(stray_slides (m := m) h1).2 hf']
          refine .inr ⟨rfl, ?_⟩
          rcases h2 with h2 | h2
          · exact absurd h2 hf'
          · show _ < aged (s.w.side L).ix.heap _
            rw [← e2]; exact h2
    · cases e : (s.w.side L).ix.pc i with
      | adv o r g n =>
        have en' : next s i y qs = (some (.inLayer L (.enter i)), .down L m) := by rw [en]; unfold down; rw [e]
        rw [en']
        right
        left
        show (stray (Whole.act fixed strict s.w (.inLayer L (.enter i))) i (.down L m)).1 < _
        have eb : beside strict (L == 0) (s.w.lay L) (.enter i) = ((s.w.side L).goto i (.sect o r n)).move i (.adv g ((s.w.side L).leaf n)) := by
          simp only [beside]
          rw [show (s.w.lay L).s = s.w.side L from rfl, e]
        have e' : ((Whole.act fixed strict s.w (.inLayer L (.enter i))).side L).ix.pc i = .sect o r n := by
          rw [post_side_same hu, eb]; exact upd_same _ _ _
        unfold stray
        dsimp only
        rw [e, e']
        exact Nat.lt_succ_self 1
      | sect o r n =>
        cases eo : (s.w.side L).owns i with
        | none =>
          have en' : next s i y qs = (some (.inLayer L (.step i)), checked s.w L m i) := by rw [en, ho]; unfold down; rw [e]; dsimp only; rw [eo]
          rw [en'] at ne ⊢
          rw [hp] at ne
          have es : (s.w.lay L).s = s.w.side L := rfl
          have ec : (s.w.lay L).c = s.w.f.layer L := rfl
          have old : stray s.w i (.down L m) = (1, insLeft ((s.w.side L).ins i)) := by unfold stray; dsimp only; rw [e]
          have go : ∀ ip, beside strict (L == 0) (s.w.lay L) (.step i) = (s.w.side L).move i ip → checked s.w L m i = .down L m → insLeft ip < insLeft ((s.w.side L).ins i) →
              Below (stray (Whole.act fixed strict s.w (.inLayer L (.step i))) i (checked s.w L m i)) (stray s.w i (.down L m)) := by
            intro ip eb hc hlt
            have e' : ((Whole.act fixed strict s.w (.inLayer L (.step i))).side L).ix.pc i = .sect o r n := by
              rw [post_side_same hu, eb]; exact e
            have e'' : ((Whole.act fixed strict s.w (.inLayer L (.step i))).side L).ins i = ip := by
              rw [post_side_same hu, eb]; exact upd_same _ _ _
            rw [hc, old]
            unfold stray
            dsimp only
            rw [e', e'']
            exact .inr ⟨rfl, hlt⟩
          have stay : onLeaves (s.w.lay L) (.step i) = none → beside strict (L == 0) (s.w.lay L) (.step i) = s.w.side L → checked s.w L m i = .down L m → False := by
            intro h1 h2 h3
            rcases ne with ne | ne
            · exact ne (act_same _ h1 h2)
            · exact ne h3
          cases ei : (s.w.side L).ins i with
          | own x =>
            unfold Whole.Side.owns at eo
            rw [e, ei] at eo
            cases eo
          | adv h x =>
            have hc : checked s.w L m i = .down L m := by unfold checked; rw [e, ei]
            have hl : onLeaves (s.w.lay L) (.step i) = none := by simp only [onLeaves]; rw [es, e, ei]
            by_cases h0 : h = 0
            · left
              rw [hc]
              have eb : beside strict (L == 0) (s.w.lay L) (.step i) = (s.w.side L).goto i (.climb o (if L == 0 then (s.w.side L).ix.heap.root else r)) := by
                simp only [beside]; rw [es, e, ei]; dsimp only; rw [if_pos h0]
              refine climbs (o := o) (r := if L == 0 then (s.w.side L).ix.heap.root else r) ?_
              show ((Whole.act fixed strict s.w _).side L).ix.pc i = _
              rw [post_side_same hu, eb]; exact upd_same _ _ _
            · by_cases hm : ((s.w.f.layer L).leaf x).mark = true
              · exfalso
                refine stay hl ?_ hc
                simp only [beside]; rw [es, e, ei]; dsimp only; rw [if_neg h0, ec, if_pos hm]
              · right
                by_cases hx : ((s.w.f.layer L).leaf x).nx = 0
                · refine go (.lock x) ?_ hc ?_
                  · simp only [beside]; rw [es, e, ei]; dsimp only; rw [if_neg h0, ec, if_neg hm, if_pos hx]
                  · rw [ei]; show 2 < 2 * h + 4; omega
                · refine go (.bound (h - 1) x ((s.w.f.layer L).leaf x).nx) ?_ hc ?_
                  · simp only [beside]; rw [es, e, ei]; dsimp only; rw [if_neg h0, ec, if_neg hm, if_neg hx]
                  · rw [ei]; show 2 * (h - 1) + 5 < 2 * h + 4; omega
          | bound h x z =>
            have hc : checked s.w L m i = .down L m := by unfold checked; rw [e, ei]
            right
            by_cases hk : ((s.w.f.layer L).leaf z).lo ≤ o.key
            · refine go (.adv h z) ?_ hc ?_
              · simp only [beside]; rw [es, e, ei]; dsimp only; rw [ec, if_pos hk]
              · rw [ei]; show 2 * h + 4 < 2 * h + 5; omega
            · refine go (.lock x) ?_ hc ?_
              · simp only [beside]; rw [es, e, ei]; dsimp only; rw [ec, if_neg hk]
              · rw [ei]; show 2 < 2 * h + 5; omega
          | lock x =>
            have hc : checked s.w L m i = .down L m := by unfold checked; rw [e, ei]
            by_cases hk : NV.lockable ((s.w.f.layer L).leaf x).word = true
            · right
              refine go (.check x) ?_ hc ?_
              · simp only [beside]; rw [es, e, ei]; dsimp only; rw [ec, if_pos hk]
              · rw [ei]; exact Nat.lt_succ_self 1
            · exfalso
              refine stay ?_ ?_ hc
              · simp only [onLeaves]; rw [es, e, ei]; dsimp only; rw [ec, if_neg hk]
              · simp only [beside]; rw [es, e, ei]; dsimp only; rw [ec, if_neg hk]
          | check x =>
            right
            by_cases hk : Whole.moved (s.w.f.layer L) x o.key = true
            · have hc : checked s.w L m i = .undo L m x := by unfold checked; rw [e, ei]; dsimp only; rw [if_pos hk]
              rw [hc, old]
              exact .inl Nat.zero_lt_one
            · have hc : checked s.w L m i = .down L m := by unfold checked; rw [e, ei]; dsimp only; rw [if_neg hk]
              refine go (.own x) ?_ hc ?_
              · simp only [beside]; rw [es, e, ei]; dsimp only; rw [ec, if_neg hk]
              · rw [ei]; exact Nat.lt_succ_self 0
        | some x =>
          exfalso
          have en' : next s i y qs = decide s.w L m i x d v qs := by rw [en, ho]; unfold down; rw [e]; dsimp only; rw [eo]
          rw [en'] at ne hr'
          rw [hp] at ne
          have hd : (decide s.w L m i x d v qs).2.roams = false ∨ (decide s.w L m i x d v qs).1 = none ∧ (decide s.w L m i x d v qs).2 = .down L m := by
            unfold decide splitOr
            dsimp only
            repeat' split
            all_goals first
              | exact .inl rfl
              | exact .inr ⟨rfl, rfl⟩
          rcases hd with hd | ⟨h1, h2⟩
          · rw [hd] at hr'; cases hr'
          · rw [h1, h2] at ne
            rcases ne with ne | ne
            · exact absurd rfl ne
            · exact absurd rfl ne
      | _ =>
        rw [e] at H hs
        exact absurd H hs
  | _ => rw [hp] at hr; cases hr

/-- Steps of others that move no bound, no link and no internode. -/
theorem spin_keep {w w' : Whole.St V} {d : Bytes} {i : Nat} (F : Frame w w' i) (T : Like w w') {p : Ph V} (hr : p.roams = true) :
    spin w' d i p = spin w d i p := by
  have eb : ∀ L, Begins (w'.f.layer L) = Begins (w.f.layer L) := fun L => T.begins L
  have el : ∀ L m x, inLayerRank w' d L m x = inLayerRank w d L m x := fun L m x => by unfold inLayerRank; rw [eb]
  have es : ∀ L, spot w' L i = spot w L i := fun L => by unfold spot; rw [F.pc L, F.ins L, T.node L]
  have ea : AimAt w' i p ↔ AimAt w i p := by
    cases p with
    | down L m =>
      have e : ∀ k x, Owner (w'.f.layer L) k x ↔ Owner (w.f.layer L) k x := fun k x => by unfold Owner; rw [T.nx L, T.lo L]
      have ei : ∀ k ip, AimIns (w'.f.layer L) k ip ↔ AimIns (w.f.layer L) k ip := fun k ip => by
        cases ip <;> simp only [AimIns, e, T.nx L]
      simp only [AimAt, F.pc L, F.ins L, T.node L, ei]
    | _ => exact Iff.rfl
  have er : rank w' d i p = rank w d i p := by
    cases p with
    | down L m => show inLayerRank w' d L m (spot w' L i) = _; rw [el, es]; rfl
    | enter L m => exact el _ _ _
    | undo L m x => rfl
    | _ => cases hr
  have et : stray w' i p = stray w i p := by
    cases p with
    | down L m => unfold stray; dsimp only; rw [F.pc L, F.ins L, T.node L]
    | _ => rfl
  unfold spin
  by_cases g : AimAt w i p
  · rw [if_pos g, if_pos (ea.2 g), er]
  · rw [if_neg g, if_neg (fun g' => g (ea.1 g')), et]
end
end Verif.Ops
