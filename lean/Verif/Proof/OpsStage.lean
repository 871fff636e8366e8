import Verif.Proof.OpsWay
import Verif.Proof.OpsBound
set_option linter.unusedSimpArgs false
set_option linter.unusedVariables false
set_option linter.unusedTactic false
set_option linter.unreachableTactic false
/-! Several inserts: each goes from layer to layer and from split to split and never back, whatever the others do. -/
namespace Verif.Ops
open Verif.Internode (upd upd_same upd_ne)
open Verif.Spec (Bytes)
open Verif.Index (Al holds)
open Verif.Whole (Inside isLocked Frame WOk LAct onLeaves beside raw lact inIndex LOk IPc)
variable {V : Type} {fixed strict : Bool}

/-- The parts of a call that it can go through again and again. -/
def Ph.roams : Ph V → Bool
  | .enter _ _ | .down _ _ | .undo _ _ _ => true
  | _ => false

/-- How far an insert has come, as far as it cannot be thrown back. -/
noncomputable def stage (w : Whole.St V) (d : Bytes) (i : Nat) : Ph V → Rank
  | .enter L m | .down L m | .undo L m _ => inLayerRank w d L m (8, 0)
  | p => rank w d i p

theorem stage_rank {w : Whole.St V} {d : Bytes} {i : Nat} {p : Ph V} (h : p.roams = false) : stage w d i p = rank w d i p := by
  cases p <;> first | rfl | cases h

/-- Two trees with the same bounds, the same links and the same internodes. -/
structure Like (w w' : Whole.St V) : Prop where
  live : ∀ L, (w'.f.layer L).live = (w.f.layer L).live
  lo : ∀ L x, ((w'.f.layer L).leaf x).lo = ((w.f.layer L).leaf x).lo
  nx : ∀ L x, ((w'.f.layer L).leaf x).nx = ((w.f.layer L).leaf x).nx
  mark : ∀ L x, ((w'.f.layer L).leaf x).mark = ((w.f.layer L).leaf x).mark
  node : ∀ L, (w'.side L).ix.heap = (w.side L).ix.heap

theorem Like.refl (w : Whole.St V) : Like w w := ⟨fun _ => rfl, fun _ _ => rfl, fun _ _ => rfl, fun _ _ => rfl, fun _ => rfl⟩

theorem Like.begins {w w' : Whole.St V} (h : Like w w') (L : Nat) : Begins (w'.f.layer L) = Begins (w.f.layer L) :=
  begins_eq (h.live L) fun x _ => h.lo L x

/-! ## Ranks -/

theorem Rank.up {r : Rank} {a b c e : Nat} {x y : Nat × Nat} (h : Rank.lt r (a, b, c, e, x.1, x.2)) (hb : Below x y) : Rank.lt r (a, b, c, e, y.1, y.2) := by
  obtain ⟨r1, r2, r3, r4, r5, r6⟩ := r
  cases h with
  | left _ _ h => exact Rank.l1 h
  | right _ h =>
    cases h with
    | left _ _ h => exact Rank.l2 h
    | right _ h =>
      cases h with
      | left _ _ h => exact Rank.l3 h
      | right _ h =>
        cases h with
        | left _ _ h => exact Rank.l4 h
        | right _ h =>
          refine Rank.l5 (x := (r5, r6)) ?_
          cases h with
          | left _ _ h =>
            rcases hb with hb | ⟨hb, _⟩
            · exact .inl (Nat.lt_trans h hb)
            · exact .inl (by rw [← hb]; exact h)
          | right _ h =>
            rcases hb with hb | ⟨hb, hb'⟩
            · exact .inl hb
            · exact .inr ⟨hb, Nat.lt_trans h hb'⟩

theorem inLayer_up {r : Rank} {w : Whole.St V} {d : Bytes} {L m : Nat} {x y : Nat × Nat} (h : Rank.lt r (inLayerRank w d L m x)) (hb : Below x y) :
    Rank.lt r (inLayerRank w d L m y) := Rank.up h hb

/-- More bounds. -/
theorem span_mono {P P' : Nat → Prop} {k : Nat} (h : ∀ t, P t → P' t) {a f g : Nat} :
    (a, last P' k, after1 P' k, gaps P' k, f, g) = (a, last P k, after1 P k, gaps P k, f, g) ∨
      Rank.lt (a, last P' k, after1 P' k, gaps P' k, f, g) (a, last P k, after1 P k, gaps P k, f, g) := by
  classical
  by_cases g1 : ∃ t, k < t ∧ P t
  · have g2 : ∃ t, k < t ∧ P' t := by obtain ⟨t, h1, h2⟩ := g1; exact ⟨t, h1, h t h2⟩
    have e1 : last P' k = last P k := by unfold last; rw [if_pos g1, if_pos g2]
    have h2 : after1 P' k ≤ after1 P k := by
      unfold after1
      rw [dif_pos g1, dif_pos g2]
      obtain ⟨h1, h2⟩ := Nat.find_spec g1
      exact Nat.find_min' g2 ⟨h1, h _ h2⟩
    have h3 : gaps P' k ≤ gaps P k := by
      unfold gaps
      refine List.Sublist.length_le (List.monotone_filter_right _ ?_)
      intro t ht
      simp only [decide_eq_true_eq] at ht ⊢
      exact fun g => ht (h t g)
    rw [e1]
    rcases Nat.lt_or_eq_of_le h2 with h2 | h2
    · exact .inr (Rank.l3 h2)
    · rw [h2]
      rcases Nat.lt_or_eq_of_le h3 with h3 | h3
      · exact .inr (Rank.l4 h3)
      · rw [h3]; exact .inl rfl
  · by_cases g2 : ∃ t, k < t ∧ P' t
    · refine .inr (Rank.l2 ?_)
      unfold last
      rw [if_neg g1, if_pos g2]
      exact Nat.zero_lt_one
    · have e1 : last P' k = last P k := by unfold last; rw [if_neg g1, if_neg g2]
      have e2 : after1 P' k = after1 P k := by unfold after1; rw [dif_neg g1, dif_neg g2]
      have h3 : gaps P' k ≤ gaps P k := by
        unfold gaps
        refine List.Sublist.length_le (List.monotone_filter_right _ ?_)
        intro t ht
        simp only [decide_eq_true_eq] at ht ⊢
        exact fun g => ht (h t g)
      rw [e1, e2]
      rcases Nat.lt_or_eq_of_le h3 with h3 | h3
      · exact .inr (Rank.l4 h3)
      · rw [h3]; exact .inl rfl

/-! ## Steps of others -/

theorem stage_keep {w w' : Whole.St V} {d : Bytes} {v : V} {i : Nat} (K : Know w) (F : Frame w w' i)
    (B : ∀ L, w.f.made L = true → ∀ t, Begins (w.f.layer L) t → Begins (w'.f.layer L) t) {p : Ph V}
    (P : PutOk w d v i p) : stage w' d i p = stage w d i p ∨ Rank.lt (stage w' d i p) (stage w d i p) := by
  have el : ∀ L m x, w.f.up L = true → inLayerRank w' d L m x = inLayerRank w d L m x ∨ Rank.lt (inLayerRank w' d L m x) (inLayerRank w d L m x) :=
    fun L m x hu => span_mono (B L (K.ok.basic.made L hu))
  have ho : ∀ {L m x}, Own w d L m i x → (w'.f.layer L).hold x = (w.f.layer L).hold x := fun h =>
    (F.own _ _ (K.ok.basic.made _ h.place.up) h.owns).2
  cases p with
  | down L m => exact el _ _ _ P.1.place.up
  | undo L m x => exact el _ _ _ P.1.place.up
  | enter L m => exact el _ _ _ P.2.up
  | freeze L m x sp => exact el _ _ _ P.1.place.up
  | part L m x y =>
    have := el L m (3, holdRank ((w.f.layer L).hold x)) P.1.place.up
    show inLayerRank w' d L m (3, holdRank ((w'.f.layer L).hold x)) = _ ∨ Rank.lt (inLayerRank w' d L m (3, holdRank ((w'.f.layer L).hold x))) _
    rw [ho P.1]; exact this
  | prop L m x y n =>
    have := el L m (9, left ((w.side L).ix.pc i) + (2 - n)) P.1.place.up
    show inLayerRank w' d L m (9, left ((w'.side L).ix.pc i) + (2 - n)) = _ ∨ Rank.lt (inLayerRank w' d L m (9, left ((w'.side L).ix.pc i) + (2 - n))) _
    rw [F.pc L]; exact this
  | conv L m x =>
    obtain ⟨_, _, _, _, _, h, _⟩ := P
    left
    show (0, 0, 0, 0, 3, holdRank ((w'.f.layer L).hold x)) = _
    rw [ho h]; rfl
  | drop L x a => cases a <;> exact .inl rfl
  | _ => exact .inl rfl

/-! ## Own steps -/

section
variable {s : St V} {d : Bytes} {v : V} {i L m : Nat}

/-- A step in a layer that moves no bound, no link and no internode. -/
theorem like_of {a : LAct V} (hu : s.w.f.up L = true) (hh : (beside strict (L == 0) (s.w.lay L) a).ix.heap = (s.w.side L).ix.heap)
    (hl : (lact fixed strict (L == 0) (s.w.lay L) a).c.live = (s.w.f.layer L).live)
    (hx : ∀ x, ((lact fixed strict (L == 0) (s.w.lay L) a).c.leaf x).lo = ((s.w.f.layer L).leaf x).lo ∧
      ((lact fixed strict (L == 0) (s.w.lay L) a).c.leaf x).nx = ((s.w.f.layer L).leaf x).nx ∧
      ((lact fixed strict (L == 0) (s.w.lay L) a).c.leaf x).mark = ((s.w.f.layer L).leaf x).mark) :
    Like s.w (Whole.act fixed strict s.w (.inLayer L a)) := by
  refine ⟨fun z => ?_, fun z x => ?_, fun z x => ?_, fun z x => ?_, fun z => ?_⟩
  · rw [post_layer hu]; split
    · rename_i e; subst e; exact hl
    · rfl
  · rw [post_layer hu]; split
    · rename_i e; subst e; exact (hx x).1
    · rfl
  · rw [post_layer hu]; split
    · rename_i e; subst e; exact (hx x).2.1
    · rfl
  · rw [post_layer hu]; split
    · rename_i e; subst e; exact (hx x).2.2
    · rfl
  · rw [post_side hu]; split
    · rename_i e; subst e; exact hh
    · rfl

theorem like_none {a : LAct V} (hu : s.w.f.up L = true) (hh : (beside strict (L == 0) (s.w.lay L) a).ix.heap = (s.w.side L).ix.heap)
    (hn : onLeaves (s.w.lay L) a = none) : Like s.w (Whole.act fixed strict s.w (.inLayer L a)) := by
  have e : (lact fixed strict (L == 0) (s.w.lay L) a).c = s.w.f.layer L := by unfold lact; rw [hn]; rfl
  exact like_of hu hh (by rw [e]) fun x => by rw [e]; exact ⟨rfl, rfl, rfl⟩

theorem like_some {a : LAct V} {b : Chain.Act V} (hu : s.w.f.up L = true) (hh : (beside strict (L == 0) (s.w.lay L) a).ix.heap = (s.w.side L).ix.heap)
    (hn : onLeaves (s.w.lay L) a = some b) (hb : (∃ x, b = .lock x) ∨ (∃ x, b = .giveUp x) ∨ ∃ x lv, b = .hold x ∧ (s.w.f.layer L).hold x = .unlock lv) :
    Like s.w (Whole.act fixed strict s.w (.inLayer L a)) := by
  have e : (lact fixed strict (L == 0) (s.w.lay L) a).c = raw fixed (s.w.f.layer L) b := by unfold lact; rw [hn]; rfl
  have one : ∀ (z : Nat) (l : Chain.LeafSt V), l.lo = ((s.w.f.layer L).leaf z).lo → l.nx = ((s.w.f.layer L).leaf z).nx → l.mark = ((s.w.f.layer L).leaf z).mark →
      ∀ x, (upd (s.w.f.layer L).leaf z l x).lo = ((s.w.f.layer L).leaf x).lo ∧ (upd (s.w.f.layer L).leaf z l x).nx = ((s.w.f.layer L).leaf x).nx ∧
        (upd (s.w.f.layer L).leaf z l x).mark = ((s.w.f.layer L).leaf x).mark := by
    intro z l h1 h2 h3 x
    by_cases e : x = z
    · subst e; rw [upd_same]; exact ⟨h1, h2, h3⟩
    · rw [upd_ne _ _ _ e]; exact ⟨rfl, rfl, rfl⟩
  have all : (raw fixed (s.w.f.layer L) b).live = (s.w.f.layer L).live ∧ ∀ x, ((raw fixed (s.w.f.layer L) b).leaf x).lo = ((s.w.f.layer L).leaf x).lo ∧
      ((raw fixed (s.w.f.layer L) b).leaf x).nx = ((s.w.f.layer L).leaf x).nx ∧ ((raw fixed (s.w.f.layer L) b).leaf x).mark = ((s.w.f.layer L).leaf x).mark := by
    rcases hb with ⟨x, rfl⟩ | ⟨x, rfl⟩ | ⟨x, lv, rfl, h⟩
    · exact ⟨rfl, one x _ rfl rfl rfl⟩
    · simp only [raw, Chain.act]
      split
      · exact ⟨rfl, fun z => ⟨rfl, rfl, rfl⟩⟩
      · exact ⟨rfl, fun z => ⟨rfl, rfl, rfl⟩⟩
    · simp only [raw, Chain.act, Chain.hstep, h]
      exact ⟨trivial, one x _ rfl rfl rfl⟩
  exact like_of hu hh (by rw [e]; exact all.1) (by rw [e]; exact all.2)

/-- What becomes of an insert on its way. -/
theorem roam_own {y : Nat} {qs : List Nat} (K : Know s.w) (ho : s.op i = .insert d v) (P : PutOk s.w d v i (s.ph i))
    (P' : PutOk (after fixed strict s.w (next s i y qs).1) d v i (next s i y qs).2) (H : WayOk s.w i (s.ph i)) (hr : (s.ph i).roams = true)
    (ne : after fixed strict s.w (next s i y qs).1 ≠ s.w ∨ (next s i y qs).2 ≠ s.ph i) :
    (Like s.w (after fixed strict s.w (next s i y qs).1) ∧ (next s i y qs).2.roams = true ∧
      stage (after fixed strict s.w (next s i y qs).1) d i (next s i y qs).2 = stage s.w d i (s.ph i)) ∨
    Rank.lt (stage (after fixed strict s.w (next s i y qs).1) d i (next s i y qs).2) (stage s.w d i (s.ph i)) := by
  have same : ∀ {w' : Whole.St V}, Like s.w w' → ∀ L m, inLayerRank w' d L m (8, 0) = inLayerRank s.w d L m (8, 0) := by
    intro w' h L m; unfold inLayerRank; rw [h.begins L]
  cases hp : s.ph i with
  | enter L m =>
    rw [hp] at P
    have en : next s i y qs = (some (.inLayer L (.call i (keyAt (s.op i) m) (s.op i).put)), .down L m) := by unfold next; rw [hp]
    rw [en]
    have hl : Like s.w (Whole.act fixed strict s.w (.inLayer L (.call i (keyAt (s.op i) m) (s.op i).put))) := by
      refine like_none P.2.up ?_ rfl
      simp only [beside]
      split
      · simp only [Index.act]; split <;> rfl
      · simp only [Index.act]; split <;> rfl
      · rfl
    exact .inl ⟨hl, rfl, same hl L m⟩
  | undo L m x =>
    rw [hp] at P
    have en : next s i y qs = (some (.inLayer L (.unlock x)), .down L m) := by unfold next; rw [hp]
    rw [en]
    have hl : Like s.w (Whole.act fixed strict s.w (.inLayer L (.unlock x))) := by
      cases e : onLeaves (s.w.lay L) (.unlock x) with
      | none => exact like_none P.1.place.up rfl e
      | some b =>
        refine like_some P.1.place.up rfl e (.inr (.inr ?_))
        simp only [onLeaves] at e
        split at e
        · rename_i lv h
          split at e
          · injection e with e; exact ⟨x, lv, e.symm, h⟩
          · cases e
        · cases e
    exact .inl ⟨hl, rfl, same hl L m⟩
  | down L m =>
    rw [hp] at P H
    obtain ⟨P, Pl⟩ := P
    have H : way ((s.w.side L).ix.pc i) = true := H
    have hu := P.place.up
    have en : next s i y qs = down s.w (s.op i) L m i qs := by unfold next; rw [hp]
    by_cases hs : slides ((s.w.side L).ix.pc i) = true
    · have en' : next s i y qs = (some (.inLayer L (.walk i)), .down L m) := by
        rw [en]
        unfold down
        cases e : (s.w.side L).ix.pc i <;> rw [e] at hs <;> first | rfl | (cases hs; done)
      rw [en']
      have hl : Like s.w (Whole.act fixed strict s.w (.inLayer L (.walk i))) := by
        refine like_none hu ?_ rfl
        simp only [beside]
        rw [show (s.w.lay L).s = s.w.side L from rfl, if_pos (slides_in hs)]
        exact (slides_step hs P.op).1
      exact .inl ⟨hl, rfl, same hl L m⟩
    · cases e : (s.w.side L).ix.pc i with
      | adv o r g n =>
        have en' : next s i y qs = (some (.inLayer L (.enter i)), .down L m) := by rw [en]; unfold down; rw [e]
        rw [en']
        have hl : Like s.w (Whole.act fixed strict s.w (.inLayer L (.enter i))) := by
          refine like_none hu ?_ ?_
          · simp only [beside]
            rw [show (s.w.lay L).s = s.w.side L from rfl, e]
            rfl
          · simp only [onLeaves]
            rw [show (s.w.lay L).s = s.w.side L from rfl, e]
        exact .inl ⟨hl, rfl, same hl L m⟩
      | sect o r n =>
        cases eo : (s.w.side L).owns i with
        | none =>
          have en' : next s i y qs = (some (.inLayer L (.step i)), checked s.w L m i) := by rw [en, ho]; unfold down; rw [e]; dsimp only; rw [eo]
          rw [en']
          have es : (s.w.lay L).s = s.w.side L := rfl
          have hh : (beside strict (L == 0) (s.w.lay L) (.step i)).ix.heap = (s.w.side L).ix.heap := by
            simp only [beside]
            rw [es, e]
            repeat' split
            all_goals rfl
          have hl : Like s.w (Whole.act fixed strict s.w (.inLayer L (.step i))) := by
            cases e' : onLeaves (s.w.lay L) (.step i) with
            | none => exact like_none hu hh e'
            | some b =>
              refine like_some hu hh e' ?_
              simp only [onLeaves] at e'
              rw [es, e] at e'
              split at e'
              · split at e'
                · injection e' with e'; exact .inl ⟨_, e'.symm⟩
                · cases e'
              · split at e'
                · injection e' with e'; exact .inr (.inl ⟨_, e'.symm⟩)
                · cases e'
              · cases e'
          have hc : checked s.w L m i = .down L m ∨ ∃ x, checked s.w L m i = .undo L m x := by
            unfold checked
            repeat' split
            · exact .inr ⟨_, rfl⟩
            · exact .inl rfl
            · exact .inl rfl
          rcases hc with hc | ⟨x, hc⟩ <;> rw [hc]
          · exact .inl ⟨hl, rfl, same hl L m⟩
          · exact .inl ⟨hl, rfl, same hl L m⟩
        | some x =>
          have en' : next s i y qs = decide s.w L m i x d v qs := by rw [en, ho]; unfold down; rw [e]; dsimp only; rw [eo]
          rw [en'] at ne P' ⊢
          rw [hp] at ne
          have N := lone_decide K hp ⟨P, eo⟩ (Pl x eo) qs P' ne
          have r2 : spot s.w L i = (4, 0) := by
            obtain ⟨o', r', n', e1, e2⟩ := owns_upd_climb eo
            unfold spot; rw [e1, e2]; rfl
          have hlt := N.2
          rw [hp] at hlt
          have hlt : Rank.lt (rank (after fixed strict s.w (decide s.w L m i x d v qs).1) d i (decide s.w L m i x d v qs).2) (inLayerRank s.w d L m (spot s.w L i)) := hlt
          rw [r2] at hlt
          have hlt := inLayer_up hlt (y := (8, 0)) (.inl (by decide))
          have hd : (decide s.w L m i x d v qs).2.roams = false ∨ (decide s.w L m i x d v qs).1 = none ∧ (decide s.w L m i x d v qs).2 = .down L m := by
            unfold decide splitOr
            dsimp only
            repeat' split
            all_goals first
              | exact .inl rfl
              | exact .inr ⟨rfl, rfl⟩
          rcases hd with hd | ⟨h1, h2⟩
          · right
            rw [stage_rank hd]
            exact hlt
          · rw [h1, h2] at ne
            rcases ne with ne | ne
            · exact absurd rfl ne
            · exact absurd rfl ne
      | _ =>
        rw [e] at H hs
        exact absurd H hs
  | _ => rw [hp] at hr; cases hr

/-- A step of an insert that splits a leaf, goes to another layer, ends, or propagates a split. -/
theorem firm_own {y : Nat} {qs : List Nat} (K : Know s.w) (ho : s.op i = .insert d v) (hb : (s.ph i).over = false) (P : PutOk s.w d v i (s.ph i))
    (P' : PutOk (after fixed strict s.w (next s i y qs).1) d v i (next s i y qs).2) (S : Spread s.w i (s.ph i)) (Lk : LockOk s.w i (s.ph i))
    (hr : (s.ph i).roams = false) (M : ∀ L, s.w.f.made L = true → Chain.MarkOk (s.w.f.layer L))
    (F : ∀ L o e, ((after fixed strict s.w (next s i y qs).1).side L).ix.pc i ≠ .fail o e)
    (ne : after fixed strict s.w (next s i y qs).1 ≠ s.w ∨ (next s i y qs).2 ≠ s.ph i) :
    Rank.lt (stage (after fixed strict s.w (next s i y qs).1) d i (next s i y qs).2) (stage s.w d i (s.ph i)) := by
  have A : AimAt s.w i (s.ph i) := by cases hp : s.ph i <;> first | trivial | (rw [hp] at hr; cases hr)
  have N := (lone_step K ho hb P P' S Lk A (fun L m e => by rw [e] at hr; cases hr) M F ne).2
  rw [stage_rank hr]
  have hc : (next s i y qs).2.roams = false ∨ (∃ L m, (next s i y qs).2 = .enter L m) ∨
      ∃ L m x z n, s.ph i = .prop L m x z n ∧ next s i y qs = (none, .down L m) := by
    cases hp : s.ph i with
    | enter L m => rw [hp] at hr; cases hr
    | down L m => rw [hp] at hr; cases hr
    | undo L m x => rw [hp] at hr; cases hr
    | prop L m x z n =>
      have en : next s i y qs = spread s.w L m i x z n := by unfold next; rw [hp]
      rw [hp] at S
      rcases spread_cases s.w L m i x z n S.1 with ⟨g, e⟩ | ⟨g, e⟩ | ⟨o, q, g, e⟩ | e | ⟨g, e⟩
      · left; rw [en, e]; rfl
      · left; rw [en, e]; rfl
      · exact .inr (.inr ⟨L, m, x, z, n, rfl, by rw [en, e]⟩)
      · left; rw [en, e]; rfl
      · left; rw [en, e]; rfl
    | drop L x a =>
      unfold next; rw [hp]; dsimp only
      cases a with
      | layer q m => exact .inr (.inl ⟨q, m, rfl⟩)
      | _ => exact .inl rfl
    | read L m => rw [hp] at P; exact P.elim
    | store L m x t pos off n => left; unfold next; rw [hp, ho]; dsimp only; split <;> rfl
    | conv L m x => left; unfold next; rw [hp]; dsimp only; (repeat' split) <;> rfl
    | freeze L m x sp => left; unfold next; rw [hp]; dsimp only; split <;> rfl
    | part L m x z => left; unfold next; rw [hp]; dsimp only; split <;> rfl
    | _ => left; unfold next; rw [hp]; rfl
  rcases hc with h | ⟨L, m, h⟩ | ⟨L, m, x, z, n, h1, h2⟩
  · rw [stage_rank h]; exact N
  · rw [h] at N ⊢; exact N
  · rw [h1, h2]
    exact inLayer_lt (x := (8, 0)) rfl (.inl (show 8 < 9 by omega))
end
end Verif.Ops
