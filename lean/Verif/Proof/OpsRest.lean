import Verif.Proof.OpsWork
set_option linter.unusedSimpArgs false
set_option linter.unusedVariables false
/-! What an insert does in the leaf it has locked: the stores, the splits, and the way out. -/
namespace Verif.Ops
open Verif.Internode (upd upd_same upd_ne)
open Verif.Perm (size get)
open Verif.Spec (Bytes)
open Verif.Tree (Leaf Cell searchKlx searchForInsert PermOK)
open Verif.Forest (Under keyIn)
open Verif.Race (SlotIs)
open Verif.Chain (setSlot freeSlot)
open Verif.Whole (Inside isLocked Frame WOk LAct onLeaves beside raw lact onForest inIndex)
variable {V : Type} {fixed strict : Bool}

section
variable {s : Whole.St V} {d : Bytes} {v : V} {i L m x : Nat}

theorem assign_klx (k : Key) : (if k.hasSuffix then Tree.ksufKeylenx else k.currentLen) = searchKlx k := by
  rcases Tree.searchKlx_cases k with ⟨a1, a2, _⟩ | ⟨a1, a2, _⟩
  · rw [a1, if_pos rfl, a2]; rfl
  · rw [a1, if_neg (by simp), a2]

/-- One of the stores to the new slot. -/
theorem put_store (K : Know s) {t pos off n : Nat} (h : PutOk s d v i (.store L m x t pos off n)) :
    PutOk (Whole.act fixed strict s (.inLayer L (assign ((s.f.layer L).leaf x).b i t (kat d m) v n))) d v i
      (if n < 3 then .store L m x t pos off (n + 1) else .publish L m x pos off) ∧
      Effect s d v (some (.inLayer L (assign ((s.f.layer L).leaf x).b i t (kat d m) v n))) (.store L m x t pos off n)
        (if n < 3 then .store L m x t pos off (n + 1) else .publish L m x pos off) := by
  obtain ⟨ho, hl, hg, hoff, ht, hn, h1, h2, h3, _⟩ := h
  obtain ⟨lv, eh⟩ := Whole.isLocked_iff hl
  have hb := back_free (ho.perm K.ok hl) hoff
  rw [← ht] at hb
  have hfs : freeSlot ((s.f.layer L).leaf x).b.perm t = true := decide_eq_true hb
  have W : ∀ ik kl c sf, (Whole.act fixed strict s (.inLayer L (.write i t ik kl c sf))).f.layer L =
      { s.f.layer L with leaf := upd (s.f.layer L).leaf x { (s.f.layer L).leaf x with b := setSlot ((s.f.layer L).leaf x).b t ik kl c sf } } := by
    intro ik kl c sf
    have e : onLeaves (s.lay L) (.write i t ik kl c sf) = some (.write x t ik kl c sf) := by
      simp only [onLeaves]; rw [show (s.lay L).s.owns i = _ from ho.owns]; rfl
    rw [ho.layer e]
    simp only [raw, Chain.act, eh, hfs, if_true]
  have P : ∀ ik kl c sf, Own (Whole.act fixed strict s (.inLayer L (.write i t ik kl c sf))) d L m i x := fun _ _ _ _ => ho.post rfl rfl
  have G : ∀ ik kl c sf, Gap (setSlot ((s.f.layer L).leaf x).b t ik kl c sf) (kat d m) pos := fun _ _ _ _ => hg.setSlot hb
  match n, hn with
  | 0, _ =>
    rw [if_pos (by omega)]
    refine ⟨⟨P _ _ _ _, ?_⟩, .mute _ _ _ _ rfl rfl⟩
    simp only [assign, W, upd_same]
    exact ⟨hl, G _ _ _ _, hoff, ht, by omega, fun _ => upd_same _ _ _, by omega, by omega, by omega⟩
  | 1, _ =>
    rw [if_pos (by omega)]
    refine ⟨⟨P _ _ _ _, ?_⟩, .mute _ _ _ _ rfl rfl⟩
    simp only [assign, W, upd_same]
    exact ⟨hl, G _ _ _ _, hoff, ht, by omega, fun _ => (upd_same _ _ _).trans (h1 (by omega)), fun _ => upd_same _ _ _, by omega, by omega⟩
  | 2, _ =>
    rw [if_pos (by omega)]
    refine ⟨⟨P _ _ _ _, ?_⟩, .mute _ _ _ _ rfl rfl⟩
    simp only [assign, W, upd_same]
    exact ⟨hl, G _ _ _ _, hoff, ht, by omega, fun _ => (upd_same _ _ _).trans (h1 (by omega)), fun _ => (upd_same _ _ _).trans (h2 (by omega)),
      fun _ => (upd_same _ _ _).trans (assign_klx _), by omega⟩
  | 3, _ =>
    rw [if_neg (by omega)]
    refine ⟨⟨P _ _ _ _, ?_⟩, .mute _ _ _ _ rfl rfl⟩
    simp only [assign, W, upd_same]
    refine ⟨hl, G _ _ _ _, hoff, ⟨?_, ?_⟩, ?_⟩
    · show upd _ t _ (get 5 ((s.f.layer L).leaf x).b.perm (23 - off)) = _
      rw [← ht, upd_same]; exact h1 (by omega)
    · show if (kat d m).hasSuffix = true then upd _ t _ (get 5 ((s.f.layer L).leaf x).b.perm (23 - off)) = _ ∧ upd _ t _ (get 5 ((s.f.layer L).leaf x).b.perm (23 - off)) = _
        else upd _ t _ (get 5 ((s.f.layer L).leaf x).b.perm (23 - off)) = _
      rw [← ht, upd_same, upd_same, h3 (by omega)]
      rcases Tree.searchKlx_cases (kat d m) with ⟨a1, a2, _⟩ | ⟨a1, a2, _⟩
      · rw [a1, if_pos rfl]; exact ⟨a2, rfl⟩
      · rw [a1, if_neg (by simp)]; exact a2
    · show upd _ t _ (get 5 ((s.f.layer L).leaf x).b.perm (23 - off)) = _
      rw [← ht, upd_same]; exact h2 (by omega)

/-- The new slot is published. -/
theorem put_publish (K : Know s) {pos off : Nat} (h : PutOk s d v i (.publish L m x pos off)) :
    PutOk (Whole.act fixed strict s (.inLayer L (.publish i pos off))) d v i (.close L x .count) ∧
      Effect s d v (some (.inLayer L (.publish i pos off))) (.publish L m x pos off) (.close L x .count) := by
  obtain ⟨ho, hl, hg, hoff, hs, hc⟩ := h
  obtain ⟨lv, eh⟩ := Whole.isLocked_iff hl
  have es : (Cas.Try.slot ⟨⟨0, 0⟩, 0#32, ((s.f.layer L).leaf x).b.perm, pos, off⟩) = get 5 ((s.f.layer L).leaf x).b.perm (23 - off) := rfl
  have ek : ((s.f.layer L).leaf x).b.klx (get 5 ((s.f.layer L).leaf x).b.perm (23 - off)) = searchKlx (kat d m) := by
    have := hs.2
    rcases Tree.searchKlx_cases (kat d m) with ⟨a1, a2, _⟩ | ⟨a1, a2, _⟩
    · rw [a1, if_pos rfl] at this; rw [a2]; exact this.1
    · rw [a1, if_neg (by simp)] at this; rw [a2]; exact this
  have e8 : searchKlx (kat d m) ≤ 8 ∨ searchKlx (kat d m) = 64 ∧
      (((s.f.layer L).leaf x).b.ksuf (get 5 ((s.f.layer L).leaf x).b.perm (23 - off))).isSome = true := by
    rcases Tree.searchKlx_cases (kat d m) with ⟨a1, a2, _⟩ | ⟨_, a2, a3, _⟩
    · have := hs.2
      rw [a1, if_pos rfl] at this
      exact .inr ⟨a2, by rw [this.2]; rfl⟩
    · left; rw [a2]; omega
  have hr : Whole.ready ((s.f.layer L).leaf x) (kat d m).ikey pos (get 5 ((s.f.layer L).leaf x).b.perm (23 - off)) = true := by
    simp only [Whole.ready, decide_eq_true_eq]
    refine ⟨hg.left, hg.right, ?_, hs.1, by rw [hc]; rfl, by rw [ek]; exact e8⟩
    rw [ek]; exact hg.new
  have e : onLeaves (s.lay L) (.publish i pos off) = some (.publish x pos off) := by
    simp only [onLeaves]
    rw [show (s.lay L).s.owns i = _ from ho.owns]
    simp only
    rw [show (s.lay L).s.key i = kat d m from ho.key, show (s.lay L).c = s.f.layer L from rfl, es, if_pos ⟨hl, hg.le, hoff, hr⟩]
  have q := ho.insOk K.ok
  have fit : Chain.fits ((s.f.layer L).leaf x) ((s.f.layer L).leaf ((s.f.layer L).leaf x).nx).lo pos (get 5 ((s.f.layer L).leaf x).b.perm (23 - off)) = true := by
    simp only [Whole.ready, decide_eq_true_eq] at hr
    obtain ⟨r1, r2, r3, r4, r5, r6⟩ := hr
    simp only [Chain.fits, decide_eq_true_eq]
    rw [r4]
    exact ⟨r1, r2, r3, q.2.1, q.2.2.2, r5, r6⟩
  refine ⟨⟨⟨m, ho.post rfl rfl⟩, ?_, .inl rfl⟩, .inr ⟨rfl, wr_value K.ok ho e hs (fun k => ?_), _, _, _, onF ho e, rfl⟩⟩
  · rw [ho.layer e]; exact hl
  · simp only [Chain.written, eh, es, hc]
    by_cases hk : SlotIs ((s.f.layer L).leaf x).b (get 5 ((s.f.layer L).leaf x).b.perm (23 - off)) k
    · rw [if_pos ⟨⟨hg.le, hoff, fit⟩, hk⟩, if_pos hk]
    · rw [if_neg (fun g => hk g.2), if_neg hk]

theorem hold_on (h : Own s d L m i x) : onLeaves (s.lay L) (.hold i) = some (.hold x) := by
  simp only [onLeaves]; rw [show (s.lay L).s.owns i = _ from h.owns]; rfl

/-- One of the stores that turn a value into a layer. -/
theorem put_conv (K : Know s) (h : PutOk s d v i (.conv L m x)) :
    PutOk (Whole.act fixed strict s (.inLayer L (.hold i))) d v i
        (match (s.f.layer L).hold x with
          | .conv _ _ _ st => if st < 4 then .conv L m x else .close L x .count
          | _ => .conv L m x) ∧
      Effect s d v (some (.inLayer L (.hold i))) (.conv L m x)
        (match (s.f.layer L).hold x with
          | .conv _ _ _ st => if st < 4 then .conv L m x else .close L x .count
          | _ => .conv L m x) := by
  obtain ⟨lv, t, q, st, j, ho, eh, hst, hm, hj, hk, hv⟩ := h
  have e := hold_on ho
  have P : Own (Whole.act fixed strict s (.inLayer L (.hold i))) d L m i x := by
    refine ho.post rfl ?_
    simp only [beside]
    rw [show (s.lay L).s.owns i = _ from ho.owns]
    simp only
    rw [show (s.lay L).c.hold x = _ from eh]
    rfl
  have E : ((Whole.act fixed strict s (.inLayer L (.hold i))).f.layer L).hold x = Chain.convNext lv t q st := by
    rw [ho.layer e]
    simp only [raw, Chain.act, Chain.hstep, eh, upd_same]
  rw [eh]
  simp only
  have hu := ho.place.up
  have wn : ∀ d', wr s (some (.inLayer L (.hold i))) d' =
      if st = 4 then (if d' = d then some v else none) else none := by
    intro d'
    unfold wr
    rw [onF ho e]
    show Forest.written s.f d' (.inLayer L (.hold x)) = _
    simp only [Forest.written, Chain.written, eh]
    by_cases h4 : st = 4
    · simp only [h4, true_and, if_true]
      obtain ⟨r1, r2, r3⟩ := K.rel L x lv t q st j hu eh hj
      by_cases hd : d' = d
      · subst hd
        subst hk
        rw [if_pos ⟨hu, rfl, r1⟩, if_pos ⟨r3, r2⟩]
        simp only [hj]
        rw [if_pos trivial, if_pos trivial, hv]
      · rw [if_neg hd]
        split
        · split
          · rename_i g
            split at g
            · cases g
            · cases g
          · rename_i q' g
            split at g
            · cases g
              rw [hj]
              simp only
              rw [if_neg (fun g => hd (by rw [← g, hk]))]
            · cases g
          · rfl
        · rfl
    · simp only [h4, false_and, if_false]
      split <;> rfl
  by_cases h4 : st < 4
  · rw [if_pos h4]
    refine ⟨⟨lv, t, q, st + 1, j, P, ?_, by omega, ?_, ?_, hk, hv⟩, .inl ⟨fun d' => ?_, rfl⟩⟩
    · rw [E]; unfold Chain.convNext; rw [if_pos h4]
    · rw [post_made hu]; exact hm
    · rw [post_job hu]; exact hj
    · rw [wn, if_neg (by omega)]
  · rw [if_neg h4]
    refine ⟨⟨⟨m, P⟩, ?_, .inl rfl⟩, .inr ⟨rfl, fun d' => ?_, _, _, _, onF ho e, rfl⟩⟩
    · rw [E]; unfold Chain.convNext; rw [if_neg h4]; rfl
    · rw [wn, if_pos (by omega)]

/-- The permutation is frozen. -/
theorem put_freeze (K : Know s) {sp y : Nat} (h : PutOk s d v i (.freeze L m x sp))
    (g : (s.f.layer L).used y = false ∧ y ≠ 0 ∧
      ((s.f.layer L).leaf x).b.ikey (get 5 ((s.f.layer L).leaf x).b.perm (sp - 1)) < ((s.f.layer L).leaf x).b.ikey (get 5 ((s.f.layer L).leaf x).b.perm sp)) :
    PutOk (Whole.act fixed strict s (.inLayer L (.freeze i sp y))) d v i (.part L m x y) ∧
      Effect s d v (some (.inLayer L (.freeze i sp y))) (.freeze L m x sp) (.part L m x y) := by
  obtain ⟨ho, ⟨lv, eh⟩, h0, h1⟩ := h
  have e : onLeaves (s.lay L) (.freeze i sp y) = some (.freeze x sp y) := by
    simp only [onLeaves]; rw [show (s.lay L).s.owns i = _ from ho.owns]; rfl
  refine ⟨⟨ho.post rfl rfl, ?_⟩, .mute _ _ _ _ rfl rfl⟩
  rw [ho.layer e]
  simp only [raw, Chain.act, eh]
  rw [if_pos ⟨h0, h1, g.2.2, g.1, g.2.1⟩]
  simp only [upd_same]
  rfl

/-- A step of the split. -/
theorem put_part (K : Know s) {y : Nat} (h : PutOk s d v i (.part L m x y)) :
    PutOk (Whole.act fixed strict s (.inLayer L (.hold i))) d v i
        (match (s.f.layer L).hold x with
          | .publish _ _ => .prop L m x y 0
          | _ => .part L m x y) ∧
      Effect s d v (some (.inLayer L (.hold i))) (.part L m x y)
        (match (s.f.layer L).hold x with
          | .publish _ _ => .prop L m x y 0
          | _ => .part L m x y) := by
  obtain ⟨ho, hn⟩ := h
  have e := hold_on ho
  have hu := ho.place.up
  have wn : ∀ d', wr s (some (.inLayer L (.hold i))) d' = none := by
    intro d'
    unfold wr
    rw [onF ho e]
    show Forest.written s.f d' (.inLayer L (.hold x)) = _
    simp only [Forest.written, Chain.written]
    split
    · split
      · rename_i g
        split at g
        · split at g <;> cases g
        · cases g
      · rename_i g
        split at g
        · rename_i g'; rw [g'] at hn; cases hn
        · cases g
      · rfl
    · rfl
  have stay : (∀ lv y', (s.f.layer L).hold x ≠ .publish lv y') → Own (Whole.act fixed strict s (.inLayer L (.hold i))) d L m i x := by
    intro g
    refine ho.post rfl ?_
    simp only [beside]
    rw [show (s.lay L).s.owns i = _ from ho.owns]
    simp only
    split
    · rename_i g'; exact absurd g' (g _ _)
    · rfl
  cases eh : (s.f.layer L).hold x with
  | publish lv y' =>
    simp only
    obtain ⟨o, r, n, g1, g2⟩ := owns_upd_climb ho.owns
    have eb : beside strict (L == 0) (s.lay L) (.hold i) = Whole.link (L == 0) (s.side L) i x y' ((s.f.layer L).leaf y').lo := by
      simp only [beside]
      rw [show (s.lay L).s.owns i = _ from ho.owns]
      simp only
      rw [show (s.lay L).c.hold x = _ from eh]
      rfl
    have epc : ∃ u : Index.Ctx Unit, u.o = o ∧ (Whole.link (L == 0) (s.side L) i x y' ((s.f.layer L).leaf y').lo).ix.pc i = .par u := by
      unfold Whole.link
      rw [g1]
      exact ⟨_, rfl, upd_same _ _ _⟩
    obtain ⟨u, eu, epc⟩ := epc
    refine ⟨⟨ho.toHere.post rfl eb ?_ ?_ ?_ ?_, ?_⟩, .inl ⟨wn, rfl⟩⟩
    · rw [epc]; exact ⟨nofun, nofun⟩
    · unfold Whole.link; rw [g1]
    · rw [epc, g1]; show some u.o = _; rw [eu]; rfl
    · rw [epc]; nofun
    · cases g : ((Whole.act fixed strict s (.inLayer L (.hold i))).side L).owns i with
      | none => rfl
      | some x =>
        obtain ⟨_, _, _, g, _⟩ := owns_upd_climb g
        rw [post_side_same hu, eb, epc] at g
        cases g
  | take lv raw' sp y' j =>
    rw [eh] at hn
    refine ⟨⟨stay (by rw [eh]; nofun), ?_⟩, .inl ⟨wn, rfl⟩⟩
    rw [ho.layer e]
    simp only [raw, Chain.act, Chain.hstep, eh]
    split <;> (simp only [upd_same]; exact hn)
  | clear lv raw' sp y' j =>
    rw [eh] at hn
    refine ⟨⟨stay (by rw [eh]; nofun), ?_⟩, .inl ⟨wn, rfl⟩⟩
    rw [ho.layer e]
    simp only [raw, Chain.act, Chain.hstep, eh]
    split <;> (simp only [upd_same]; exact hn)
  | unfreeze lv raw' sp y' =>
    rw [eh] at hn
    refine ⟨⟨stay (by rw [eh]; nofun), ?_⟩, .inl ⟨wn, rfl⟩⟩
    rw [ho.layer e]
    simp only [raw, Chain.act, Chain.hstep, eh, upd_same]
    exact hn
  | mark lv y' =>
    rw [eh] at hn
    refine ⟨⟨stay (by rw [eh]; nofun), ?_⟩, .inl ⟨wn, rfl⟩⟩
    rw [ho.layer e]
    simp only [raw, Chain.act, Chain.hstep, eh, upd_same]
    exact hn
  | setNext lv y' =>
    rw [eh] at hn
    refine ⟨⟨stay (by rw [eh]; nofun), ?_⟩, .inl ⟨wn, rfl⟩⟩
    rw [ho.layer e]
    simp only [raw, Chain.act, Chain.hstep, eh, upd_same]
    exact hn
  | _ => rw [eh] at hn; cases hn

/-- A step of the propagation. -/
theorem put_spread (K : Know s) {y n : Nat} (h : PutOk s d v i (.prop L m x y n)) :
    PutOk (after fixed strict s (spread s L m i x y n).1) d v i (spread s L m i x y n).2 ∧
      Effect s d v (spread s L m i x y n).1 (.prop L m x y n) (spread s L m i x y n).2 := by
  obtain ⟨hh, ho⟩ := h
  have hu := hh.place.up
  have same : ∀ a : LAct V, notRead a = true → beside strict (L == 0) (s.lay L) a = s.side L → ∀ n', 
      PutOk (Whole.act fixed strict s (.inLayer L a)) d v i (.prop L m x y n') := by
    intro a hr e n'
    refine ⟨hh.post hr e hh.inside rfl rfl hh.look, ?_⟩
    rw [post_side_same hu, e]; exact ho
  unfold spread
  simp only
  split
  · exact ⟨same _ rfl rfl _, .mute _ _ _ _ rfl rfl⟩
  · split
    · exact ⟨same _ rfl rfl _, .mute _ _ _ _ rfl rfl⟩
    · split
      · split
        · exact ⟨⟨hh, fun x g => absurd (ho.symm.trans g) nofun⟩, .none _ _ _ rfl⟩
        · exact ⟨⟨hh, ho⟩, .none _ _ _ rfl⟩
      · rename_i g; exact absurd g (K.fine _ _ _ _)
      · refine ⟨?_, .mute _ _ _ _ rfl rfl⟩
        by_cases hi : inIndex ((s.side L).ix.pc i) = true
        · exact put_walk hh hi
        · exact same _ rfl (by simp only [beside]; exact if_neg hi) _

/-- The lock is dropped. -/
theorem put_drop (K : Know s) {a : After V} (h : PutOk s d v i (.drop L x a)) :
    PutOk (Whole.act fixed strict s (.inLayer L (.unlock x))) d v i a.ph ∧ Effect s d v (some (.inLayer L (.unlock x))) (.drop L x a) a.ph := by
  obtain ⟨hh, hw, he⟩ := h
  have H : ∀ z, Home (Whole.act fixed strict s (.inLayer L (.unlock x))) z i := by
    intro z
    cases hu : s.f.up L with
    | false => simp only [Whole.act, hu]; exact hh z
    | true =>
      by_cases hz : z = L
      · subst hz
        refine ⟨fun g => (hh z).out ?_, fun g => ?_⟩
        · unfold Inside at g ⊢
          rw [post_side_same hu] at g; exact g
        · rw [post_layer_same hu, lact_rd _ _ _ _ rfl]; rw [post_made hu] at g; exact (hh z).rd g
      · exact (hh z).post hu _ hz
  refine ⟨?_, .mute _ _ _ _ rfl (by cases a <;> rfl)⟩
  cases a with
  | layer q m =>
    refine ⟨H, ?_⟩
    have := hw q m rfl
    cases hu : s.f.up L with
    | false => simp only [Whole.act, hu]; exact this
    | true => exact this.post hu _
  | count => exact H
  | ret r => exact H
  | err => exact absurd rfl he
end

end Verif.Ops
