import Verif.Proof.OpsLocks
set_option linter.unusedSimpArgs false
set_option linter.unusedVariables false
/-! The locks of the leaves in the steps of a call. -/
namespace Verif.Ops
open Verif.Internode (upd upd_same upd_ne)
open Verif.Perm (size get)
open Verif.Spec (Bytes)
open Verif.Tree (Leaf Cell searchKlx searchForInsert PermOK)
open Verif.Forest (Under keyIn)
open Verif.Whole (Inside isLocked Frame WOk LAct onLeaves beside raw lact onForest inIndex target)
variable {V : Type} {fixed strict : Bool}

/-- Steps that do not touch locks. -/
def still : LAct V → Bool
  | .call _ _ _ | .walk _ | .enter _ | .read _ | .write _ _ _ _ _ _ | .publish _ _ _ | .update _ _ _ => true
  | _ => false

theorem lact_still (l : Whole.Lay V) (fixed strict main : Bool) {a : LAct V} (h : still a = true) :
    (lact fixed strict main l a).c.hold = l.c.hold ∧ (lact fixed strict main l a).c.live = l.c.live := by
  unfold lact
  simp only
  cases e : onLeaves l a with
  | none => exact ⟨rfl, rfl⟩
  | some b =>
    cases a with
    | call => cases e
    | walk => cases e
    | enter j => simp only [onLeaves] at e; split at e <;> cases e <;> exact ⟨rfl, rfl⟩
    | read j => cases e; exact ⟨rfl, rfl⟩
    | write j t ik kl cl sf =>
      simp only [onLeaves, Option.map_eq_some_iff] at e
      obtain ⟨z, _, rfl⟩ := e
      simp only [raw, Chain.act]; (repeat' split) <;> exact ⟨rfl, rfl⟩
    | publish j pos off =>
      simp only [onLeaves] at e
      split at e
      · split at e <;> cases e
        exact ⟨rfl, rfl⟩
      · cases e
    | update j t v =>
      simp only [onLeaves, Option.map_eq_some_iff] at e
      obtain ⟨z, _, rfl⟩ := e
      simp only [raw, Chain.act]; (repeat' split) <;> exact ⟨rfl, rfl⟩
    | _ => cases h

/-- Steps outside the internodes. -/
def outside : LAct V → Bool
  | .walk _ | .hold _ => false
  | _ => true

theorem beside_heap (l : Whole.Lay V) (strict main : Bool) {a : LAct V} (h : outside a = true) :
    (beside strict main l a).ix.heap = l.s.ix.heap ∧ (beside strict main l a).num = l.s.num := by
  cases a with
  | walk => cases h
  | hold => cases h
  | call j k put =>
    simp only [beside]
    split
    · rename_i g; simp [Index.act, g]
    · rename_i g; simp [Index.act, g]
    · exact ⟨rfl, rfl⟩
  | enter j => simp only [beside]; (repeat' split) <;> exact ⟨rfl, rfl⟩
  | step j => simp only [beside]; (repeat' split) <;> exact ⟨rfl, rfl⟩
  | finish j => simp only [beside]; (repeat' split) <;> exact ⟨rfl, rfl⟩
  | _ => exact ⟨rfl, rfl⟩

/-- The step that makes a new leaf. -/
def isFreeze : Chain.Act V → Bool
  | .freeze _ _ _ => true
  | _ => false

theorem raw_hold {c : Chain.St V} (fixed : Bool) (b : Chain.Act V) (hb : isFreeze b = false) {z : Nat} (hz : z ≠ target b) :
    (raw fixed c b).hold z = c.hold z := by
  cases b with
  | start => rfl
  | read => rfl
  | publish => rfl
  | lock x => exact upd_ne _ _ _ hz
  | freeze => cases hb
  | hold x =>
    show (Chain.hstep c x).hold z = _
    have hz : z ≠ x := hz
    unfold Chain.hstep
    (repeat' split) <;> first | rfl | exact upd_ne _ _ _ hz
  | _ => simp only [raw, Chain.act, target] at hz ⊢; (repeat' split) <;> first | rfl | exact upd_ne _ _ _ hz

section
variable {s : Whole.St V} {j L : Nat} {p p' : Ph V} {a : LAct V} {b : Chain.Act V}

/-- A step at a leaf that the thread has to unlock before and after. -/
theorem Moves.work (hu : s.f.up L = true) (W : WOk s) (e : onLeaves (s.lay L) a = some b) (hb : isFreeze b = false)
    (h : ∀ K x, keeps s j p K x → K = L) (hk : ∀ K x, keeps (Whole.act fixed strict s (.inLayer L a)) j p' K x ↔ keeps s j p K x)
    (ht : keeps s j p L (target b)) (hp : p'.isProp = p.isProp) (m4 : LockOk (Whole.act fixed strict s (.inLayer L a)) j p')
    (hl : (raw fixed (s.f.layer L) b).live = (s.f.layer L).live)
    (hi : (beside strict (L == 0) (s.lay L) a).ix.heap = (s.side L).ix.heap ∧ (beside strict (L == 0) (s.lay L) a).num = (s.side L).num) :
    Moves s (Whole.act fixed strict s (.inLayer L a)) j p p' := by
  have E : (lact fixed strict (L == 0) (s.lay L) a).c = raw fixed (s.f.layer L) b := by unfold lact; rw [e]; rfl
  have N : ∀ x, ¬ keeps s j p L x → (raw fixed (s.f.layer L) b).hold x = (s.f.layer L).hold x := by
    intro x hx
    refine raw_hold fixed b hb ?_
    rintro rfl; exact hx ht
  refine .inLayer hu W h (fun K x g => h K x ((hk K x).1 g)) (fun x g => ?_) (fun x g => .inl ((hk L x).1 g)) (fun x _ g => by rw [E]; exact N x g) m4
    (fun x g1 g2 => ?_) (fun x g => by rw [E, hl]; exact g)
  · by_cases e : keeps s j p L x
    · exact .inl ((hk L x).2 e)
    · rw [E, N x e] at g; exact .inr ⟨e, g⟩
  · rw [E, hl] at g1
    rw [hi.1, hi.2] at g2
    by_cases e : p.isProp = true ∧ keeps s j p L x
    · exact .inl ⟨hp.trans e.1, (hk L x).2 e.2⟩
    · exact .inr ⟨e, g1, g2⟩

/-- A leaf is unlocked. -/
theorem Moves.free (hu : s.f.up L = true) (W : WOk s) (e : onLeaves (s.lay L) a = some b) (hb : isFreeze b = false)
    (h : ∀ K x, keeps s j p K x → K = L)
    (hk : ∀ K x, keeps (Whole.act fixed strict s (.inLayer L a)) j p' K x ↔ keeps s j p K x ∧ x ≠ target b)
    (hf : (raw fixed (s.f.layer L) b).hold (target b) = .free) (hn : ((s.side L).ix.heap.node ((s.side L).num (target b))).locked = false)
    (ht : keeps s j p L (target b)) (hp : p.isProp = true → p'.isProp = true) (m4 : LockOk (Whole.act fixed strict s (.inLayer L a)) j p')
    (hl : (raw fixed (s.f.layer L) b).live = (s.f.layer L).live)
    (hi : (beside strict (L == 0) (s.lay L) a).ix.heap = (s.side L).ix.heap ∧ (beside strict (L == 0) (s.lay L) a).num = (s.side L).num) :
    Moves s (Whole.act fixed strict s (.inLayer L a)) j p p' := by
  have E : (lact fixed strict (L == 0) (s.lay L) a).c = raw fixed (s.f.layer L) b := by unfold lact; rw [e]; rfl
  have N : ∀ x, ¬ keeps s j p L x → (raw fixed (s.f.layer L) b).hold x = (s.f.layer L).hold x := by
    intro x hx
    refine raw_hold fixed b hb ?_
    rintro rfl; exact hx ht
  refine .inLayer hu W h (fun K x g => h K x ((hk K x).1 g).1) (fun x g => ?_) (fun x g => .inl ((hk L x).1 g).1) (fun x _ g => by rw [E]; exact N x g) m4
    (fun x g1 g2 => ?_) (fun x g => by rw [E, hl]; exact g)
  · rw [E] at g
    have nx : x ≠ target b := by rintro rfl; exact g hf
    by_cases e : keeps s j p L x
    · exact .inl ((hk L x).2 ⟨e, nx⟩)
    · rw [N x e] at g; exact .inr ⟨e, g⟩
  · rw [E, hl] at g1
    rw [hi.1, hi.2] at g2
    have nx : x ≠ target b := by rintro rfl; rw [hn] at g2; cases g2
    by_cases e : p.isProp = true ∧ keeps s j p L x
    · exact .inl ⟨hp e.1, (hk L x).2 ⟨e.2, nx⟩⟩
    · exact .inr ⟨e, g1, g2⟩
end

section
variable {s : Whole.St V} {d : Bytes} {v : V} {i L m x : Nat}

theorem Own.grips (h : Own s d L m i x) (z : Nat) : Grips s i L z ↔ z = x := by
  obtain ⟨hp, hg⟩ := Whole.owns_some h.owns
  refine ⟨fun g => ?_, fun g => ⟨hp, by rw [hg, g]; rfl⟩⟩
  have := g.2
  rw [hg] at this
  exact (Option.some.inj this).symm

theorem Own.keeps (h : Own s d L m i x) (K z : Nat) : Ops.keeps s i (.down L m) K z ↔ K = L ∧ z = x := by
  simp only [Ops.keeps, h.grips]

theorem not_grips {z : Nat} (h : ∀ o r n, (s.side L).ix.pc i ≠ .sect o r n) : ¬ Grips s i L z := by
  rintro ⟨⟨o, r, n, g⟩, _⟩; exact h o r n g

/-- The end of the work in a leaf. -/
theorem moves_finish (W : WOk s) (h : Own s d L m i x) (hl : isLocked ((s.f.layer L).hold x) = true) {p : Ph V} {aft : After V}
    (hp : p.isProp = false) (hk : ∀ K z, keeps s i p K z ↔ K = L ∧ z = x) :
    Moves s (Whole.act fixed strict s (.inLayer L (.finish i))) i p (.drop L x aft) := by
  obtain ⟨lv, eh⟩ := Whole.isLocked_iff hl
  have hu := h.place.up
  have e : onLeaves (s.lay L) (.finish i) = some (.giveUp x) := by
    simp only [onLeaves]
    rw [show (s.lay L).s.owns i = _ from h.owns]
    simp only
    rw [show (s.lay L).c = s.f.layer L from rfl, if_pos hl]
  refine .work hu W e rfl (fun K z g => ((hk K z).1 g).1) (fun K z => (hk K z).symm) ((hk L x).2 ⟨rfl, rfl⟩) hp.symm ⟨post_up hu _ hu, ?_⟩ ?_
    (beside_heap _ _ _ rfl)
  · rw [h.layer e]
    simp only [raw, Chain.act, eh, upd_same]
    rfl
  · simp only [raw, Chain.act, eh]

/-- What an insert does once it has searched the leaf it has locked. -/
theorem moves_decide (K : Know s) (h : Own s d L m i x) (hl : isLocked ((s.f.layer L).hold x) = true) (qs : List Nat) :
    Moves s (after fixed strict s (decide s L m i x d v qs).1) i (.down L m) (decide s L m i x d v qs).2 := by
  have hu := h.place.up
  have kd := h.keeps
  obtain ⟨lv, eh⟩ := Whole.isLocked_iff hl
  have fin : ∀ aft, Moves s (Whole.act fixed strict s (.inLayer L (.finish i))) i (.down L m) (.drop L x aft) := fun aft =>
    moves_finish K.ok h hl rfl kd
  have spl : ∀ b ik, Moves s (after fixed strict s (splitOr L m i x b ik).1) i (.down L m) (splitOr L m i x b ik).2 := by
    intro b ik
    unfold splitOr
    split
    · exact fin _
    · have e' : onLeaves (s.lay L) (.split i) = some (.markSplit x) := by
        simp only [onLeaves]; rw [show (s.lay L).s.owns i = _ from h.owns]; rfl
      refine .work hu K.ok e' rfl (fun K z g => ((kd K z).1 g).1) (fun K z => (kd K z).symm) ((kd L x).2 ⟨rfl, rfl⟩) rfl trivial ?_ (beside_heap _ _ _ rfl)
      simp only [raw, Chain.act, eh]
  unfold decide
  simp only
  cases hf : searchForInsert ((s.f.layer L).leaf x).b (Key.shiftTimes m (Key.mk' d)) 0 (size 5 ((s.f.layer L).leaf x).b.perm) with
  | found t =>
    simp only
    cases hc : ((s.f.layer L).leaf x).b.cell t with
    | null => exact fin _
    | val old =>
      obtain ⟨h1, h2⟩ := lact_still (s.lay L) fixed strict (L == 0) (a := .update i t v) rfl
      refine .quiet hu K.ok (fun K z g => ((kd K z).1 g).1) (fun K z g => g.1) (fun z => (kd L z).symm) rfl trivial h1 h2 (fun z _ g => ?_)
      exact g
    | layer q => exact absurd hc ((h.found_val K hl hf).2 q)
  | layer t =>
    simp only
    cases hc : ((s.f.layer L).leaf x).b.cell t with
    | null => exact absurd hc (h.found_layer K hl hf).1
    | val old => exact absurd hc ((h.found_layer K hl hf).2 old)
    | layer q => exact fin _
  | conflict t =>
    simp only
    cases hc : Forest.conflict s.f L x t d v qs with
    | none => exact .none (fun _ _ => Iff.rfl) rfl trivial
    | some bs =>
      obtain ⟨lv', ev, _, cf⟩ := Forest.conflict_conf hc
      have hm := K.ok.basic.made L hu
      have es : Whole.act fixed strict s (.convert L i t d v qs) = { s with f := Forest.act fixed s.f (.convert L x t d v qs) } := by
        simp only [Whole.act]
        rw [h.owns]
        simp only
        rw [if_pos (by rw [h.key, h.place.keyIn])]
      show Moves s (Whole.act fixed strict s (.convert L i t d v qs)) i (.down L m) (.conv L m x)
      rw [es]
      have eL : (Forest.act fixed s.f (.convert L x t d v qs)).layer L = Chain.act fixed (s.f.layer L) (.convert x t (qs.headD 0)) := by
        simp only [Forest.act, hc]; exact upd_same _ _ _
      have eo : ∀ z, z ≠ L → (Forest.act fixed s.f (.convert L x t d v qs)).layer z =
          if z ∈ qs then Forest.newLayer (bs.getD (qs.idxOf z) Tree.emptyLeaf) else s.f.layer z := by
        intro z hz; simp only [Forest.act, hc]; exact upd_ne _ _ _ hz
      have em : ∀ z, (Forest.act fixed s.f (.convert L x t d v qs)).made z = true → z ∈ qs ∨ s.f.made z = true := by
        intro z hz
        simp only [Forest.act, hc, Bool.or_eq_true] at hz
        rcases hz with hz | hz
        · exact .inr hz
        · exact .inl (List.contains_iff_mem.1 hz)
      have hLq : L ∉ qs := fun g => by rw [cf.new L g] at hm; cases hm
      have hold : ∀ z, z ≠ x → ((Forest.act fixed s.f (.convert L x t d v qs)).layer L).hold z = (s.f.layer L).hold z := by
        intro z hz
        rw [eL]
        simp only [Chain.act, cf.hold]
        rw [if_pos ⟨cf.pub, cf.klx⟩]
        exact upd_ne _ _ _ hz
      have live : ((Forest.act fixed s.f (.convert L x t d v qs)).layer L).live = (s.f.layer L).live := by
        rw [eL]
        simp only [Chain.act, cf.hold]
        rw [if_pos ⟨cf.pub, cf.klx⟩]
      refine ⟨fun z w hz hh => ?_, fun z w g => .inl ((kd z w).2 g), fun z w hz hh g => ?_, trivial, fun z w hz hw g => ?_, fun z w hz hw => ?_⟩
      · by_cases e : z = L
        · subst e
          by_cases ew : w = x
          · exact .inl ⟨rfl, ew⟩
          · right
            have hh : ((Forest.act fixed s.f (.convert z x t d v qs)).layer z).hold w ≠ .free := hh
            rw [hold w ew] at hh
            exact ⟨fun g => ew ((kd z w).1 g).2, hm, hh⟩
        · have hh : ((Forest.act fixed s.f (.convert L x t d v qs)).layer z).hold w ≠ .free := hh
          rw [eo z e] at hh
          split at hh
          · exact absurd rfl hh
          · rename_i hq
            exact .inr ⟨fun g => e ((kd z w).1 g).1, (em z hz).resolve_left hq, hh⟩
      · show ((Forest.act fixed s.f (.convert L x t d v qs)).layer z).hold w = _
        by_cases e : z = L
        · subst e
          exact hold w (fun ew => g ((kd z w).2 ⟨rfl, ew⟩))
        · rw [eo z e, if_neg (fun g => by rw [cf.new z g] at hz; cases hz)]
      · right
        refine ⟨(fun g => nomatch g.1), ?_⟩
        have hw : ((Forest.act fixed s.f (.convert L x t d v qs)).layer z).live w = true := hw
        by_cases e : z = L
        · subst e
          rw [live] at hw
          exact ⟨hm, hw, g⟩
        · rw [eo z e] at hw
          split at hw
          · rename_i hq
            have hup : s.f.up z = false := by
              cases eu : s.f.up z with
              | false => rfl
              | true => have := K.ok.basic.made z eu; rw [cf.new z hq] at this; cases this
            have g : ((s.side z).ix.heap.node ((s.side z).num w)).locked = true := g
            rw [K.ok.unused z hup] at g
            cases g
          · rename_i hq
            exact ⟨(em z hz).resolve_left hq, hw, g⟩
      · show ((Forest.act fixed s.f (.convert L x t d v qs)).layer z).live w = true
        by_cases e : z = L
        · subst e; rw [live]; exact hw
        · rw [eo z e, if_neg (fun g => by rw [cf.new z g] at hz; cases hz)]; exact hw
  | notFound pos =>
    simp only
    have st : ∀ t pos off n, Moves s s i (.down L m) (.store L m x t pos off n) := fun t pos off n =>
      .none (fun K z => (kd K z).symm) rfl trivial
    split
    · exact spl _ _
    · split
      · cases ha : Tree.findAlt ((s.f.layer L).leaf x).b.perm 1 (Tree.leafWidth - size 5 ((s.f.layer L).leaf x).b.perm - 1) with
        | none => exact spl _ _
        | some q => exact st _ _ _ _
      · exact st _ _ _ _

/-- A step to the lock of the leaf. -/
theorem moves_step (W : WOk s) (h : Here s d L m i) (ho : (s.side L).owns i = none) {o : Index.Op Unit} {r n : Nat}
    (hp : (s.side L).ix.pc i = .sect o r n) :
    Moves s (Whole.act fixed strict s (.inLayer L (.step i))) i (.down L m) (checked s L m i) := by
  have hu := h.place.up
  have hm := W.basic.made L hu
  have K := W.ok L hm
  have hL : ∀ K z, keeps s i (.down L m) K z → K = L := fun K z g => g.1
  have hin : (s.side L).inside i := ⟨o, r, n, hp⟩
  have heap := beside_heap (s.lay L) strict (L == 0) (a := .step i) rfl
  -- nothing happens to the leaves, and nothing is held
  have quiet : ∀ s', beside strict (L == 0) (s.lay L) (.step i) = s' → onLeaves (s.lay L) (.step i) = none →
      (∀ z, (s'.inside i ∧ (s'.ins i).grip = some z) ↔ Grips s i L z) → checked s L m i = .down L m →
      Moves s (Whole.act fixed strict s (.inLayer L (.step i))) i (.down L m) (checked s L m i) := by
    intro s' e1 e2 g ec
    rw [ec]
    have E : (lact fixed strict (L == 0) (s.lay L) (.step i)).c = s.f.layer L := by unfold lact; rw [e2]; rfl
    refine .quiet hu W hL (fun K z g => g.1) (fun z => ?_) rfl trivial (by rw [E]) (by rw [E]) (fun z _ g => by rw [heap.1, heap.2] at g; exact g)
    simp only [keeps]
    unfold Grips at g ⊢
    rw [post_side_same hu, e1, g z]
  obtain ⟨B, eb0⟩ : ∃ B, beside strict (L == 0) (s.lay L) (.step i) = B := ⟨_, rfl⟩
  obtain ⟨E0, el0⟩ : ∃ E, onLeaves (s.lay L) (.step i) = E := ⟨_, rfl⟩
  obtain ⟨C, ec0⟩ : ∃ C, checked s L m i = C := ⟨_, rfl⟩
  have eb := eb0
  have el := el0
  have ec := ec0
  simp only [beside] at eb
  simp only [onLeaves] at el
  unfold checked at ec
  rw [show (s.lay L).s = s.side L from rfl, hp] at eb el
  rw [hp] at ec
  have none_of : ∀ z, ((s.side L).ins i).grip = none → ¬ Grips s i L z := by
    rintro z g ⟨_, g'⟩; rw [g] at g'; cases g'
  have moveOk : ∀ q : Whole.IPc, q.grip = none → ((s.side L).ins i).grip = none → ∀ z,
      ((((s.side L).move i q).inside i ∧ (((s.side L).move i q).ins i).grip = some z) ↔ Grips s i L z) := by
    intro q h1 h2 z
    refine ⟨fun g => ?_, fun g => absurd g (none_of z h2)⟩
    have := g.2
    rw [show ((s.side L).move i q).ins i = q from upd_same _ _ _, h1] at this
    cases this
  have gotoOk : ∀ q r, ((s.side L).ins i).grip = none → ∀ z,
      ((((s.side L).goto i (.climb q r)).inside i ∧ (((s.side L).goto i (.climb q r)).ins i).grip = some z) ↔ Grips s i L z) := by
    intro q r h2 z
    refine ⟨fun g => ?_, fun g => absurd g (none_of z h2)⟩
    obtain ⟨⟨_, _, _, g⟩, _⟩ := g
    rw [show ((s.side L).goto i (.climb q r)).ix.pc i = .climb q r from upd_same _ _ _] at g
    cases g
  cases gi : (s.side L).ins i with
  | adv k z =>
    rw [gi] at eb el ec moveOk gotoOk
    simp only at eb el ec
    split at eb
    · subst eb el ec; exact quiet _ eb0 el0 (gotoOk _ _ rfl) ec0
    · split at eb
      · subst eb el ec; exact quiet _ eb0 el0 (fun _ => Iff.rfl) ec0
      · split at eb
        · subst eb el ec; exact quiet _ eb0 el0 (moveOk _ rfl rfl) ec0
        · subst eb el ec; exact quiet _ eb0 el0 (moveOk _ rfl rfl) ec0
  | bound k z w =>
    rw [gi] at eb el ec moveOk gotoOk
    simp only at eb el ec
    split at eb
    · subst eb el ec; exact quiet _ eb0 el0 (moveOk _ rfl rfl) ec0
    · subst eb el ec; exact quiet _ eb0 el0 (moveOk _ rfl rfl) ec0
  | lock z =>
    rw [gi] at eb el ec moveOk gotoOk
    simp only at eb el ec
    by_cases hk : NV.lockable ((s.lay L).c.leaf z).word = true
    · rw [if_pos hk] at eb el
      subst eb el ec
      rw [ec0]
      have hfree : (s.f.layer L).hold z = .free := Whole.free_of_lockable K.C hk
      have E : (lact fixed strict (L == 0) (s.lay L) (.step i)).c = raw fixed (s.f.layer L) (.lock z) := by unfold lact; rw [el0]; rfl
      have kn : ∀ w, ¬ keeps s i (.down L m) L w := by
        rintro w ⟨_, g⟩; exact none_of w (by rw [gi]; rfl) g
      have kk : ∀ w, keeps (Whole.act fixed strict s (.inLayer L (.step i))) i (.down L m) L w ↔ w = z := by
        intro w
        simp only [keeps, Grips]
        rw [post_side_same hu, eb0]
        rw [show ((s.side L).move i (.check z)).ins i = .check z from upd_same _ _ _]
        refine ⟨fun g => (Option.some.inj g.2.2).symm, fun g => ⟨trivial, hin, by rw [g]; rfl⟩⟩
      refine .inLayer hu W hL (fun K w g => g.1) (fun w g => ?_) (fun w g => ?_) (fun w g _ => ?_) trivial (fun w g1 g2 => ?_) (fun w g => ?_)
      · by_cases ew : w = z
        · exact .inl ((kk w).2 ew)
        · rw [E, raw_hold fixed _ rfl ew] at g
          exact .inr ⟨kn w, g⟩
      · rw [kk w] at g; rw [g]; exact .inr hfree
      · rw [E]
        refine raw_hold fixed _ rfl ?_
        rintro rfl
        exact g hfree
      · rw [E] at g1
        rw [heap.1, heap.2] at g2
        exact .inr ⟨fun g => (nomatch g.1), g1, g2⟩
      · rw [E]; exact g
    · rw [if_neg hk] at eb el
      subst eb el ec; exact quiet _ eb0 el0 (fun _ => Iff.rfl) ec0
  | check z =>
    rw [gi] at eb el ec moveOk gotoOk
    simp only at eb el ec
    have gz : ∀ w, Grips s i L w ↔ w = z := by
      intro w
      unfold Grips
      rw [gi]
      exact ⟨fun g => (Option.some.inj g.2).symm, fun g => ⟨hin, by rw [g]; rfl⟩⟩
    have q := K.ins i o r n hp
    rw [show (s.lay L).s.ins i = .check z from gi] at q
    by_cases hk : Whole.moved (s.f.layer L) z o.key = true
    · rw [if_pos hk] at ec
      rw [show (s.lay L).c = s.f.layer L from rfl, if_pos hk] at eb el
      subst eb el ec
      rw [ec0]
      obtain ⟨lv, eh⟩ := Whole.isLocked_iff q.2.2
      have eh : (s.f.layer L).hold z = .locked lv := eh
      have E : (Whole.act fixed strict s (.inLayer L (.step i))).f.layer L = raw fixed (s.f.layer L) (.giveUp z) := by
        rw [post_layer_same hu]; unfold lact; rw [el0]; rfl
      refine .work hu W el0 rfl hL (fun K w => ?_) ⟨rfl, (gz z).2 rfl⟩ rfl ⟨post_up hu _ hu, ?_, ?_⟩ ?_ heap
      · simp only [keeps, gz]
      · rw [E]; simp only [raw, Chain.act, eh, upd_same]; rfl
      · rw [post_side_same hu, eb0]
        rintro ⟨_, _, _, g⟩
        rw [show ((s.side L).goto i (.climb o r)).ix.pc i = .climb o r from upd_same _ _ _] at g
        cases g
      · simp only [raw, Chain.act, eh]
    · rw [if_neg hk] at ec
      rw [show (s.lay L).c = s.f.layer L from rfl, if_neg hk] at eb el
      subst eb el ec
      refine quiet _ eb0 el0 (fun w => ?_) ec0
      rw [gz, show ((s.side L).move i (.own z)).ins i = .own z from upd_same _ _ _]
      exact ⟨fun g => (Option.some.inj g.2).symm, fun g => ⟨hin, by rw [g]; rfl⟩⟩
  | own z =>
    exfalso
    have : (s.side L).owns i = some z := Whole.owns_pc hp gi
    rw [ho] at this; cases this

/-- A step in the internodes. -/
theorem moves_walk (W : WOk s) (hu : s.f.up L = true) (hi : inIndex ((s.side L).ix.pc i) = true)
    (W' : WOk (Whole.act fixed strict s (.inLayer L (.walk i)))) {p p' : Ph V} (h : ∀ K z, keeps s i p K z → K = L)
    (h' : ∀ K z, keeps (Whole.act fixed strict s (.inLayer L (.walk i))) i p' K z → K = L)
    (hk : ∀ z, keeps (Whole.act fixed strict s (.inLayer L (.walk i))) i p' L z ↔ keeps s i p L z) (hp : p'.isProp = p.isProp)
    (m4 : LockOk (Whole.act fixed strict s (.inLayer L (.walk i))) i p') : Moves s (Whole.act fixed strict s (.inLayer L (.walk i))) i p p' := by
  have hm := W.basic.made L hu
  have K := W.ok L hm
  have K' := W'.ok L (by rw [post_made hu]; exact hm)
  obtain ⟨h1, h2⟩ := lact_still (s.lay L) fixed strict (L == 0) (a := .walk i) rfl
  have e : beside strict (L == 0) (s.lay L) (.walk i) = { s.side L with ix := Index.act strict (L == 0) (s.side L).ix (.run i) } := by
    simp only [beside]
    rw [show (s.lay L).s = s.side L from rfl, if_pos hi]
  have S := Index.step_leaves (strict := strict) (K.F.I.ok i) hi
  refine .quiet hu W h h' hk hp m4 h1 h2 (fun z hz g => ?_)
  have up := K'.up z (by rw [show ((Whole.act fixed strict s (.inLayer L (.walk i))).lay L).c.live z = (lact fixed strict (L == 0) (s.lay L) (.walk i)).c.live z from
    congrArg (fun c => Chain.St.live c z) (post_layer_same hu _), h2]; exact hz)
  rw [show ((Whole.act fixed strict s (.inLayer L (.walk i))).lay L).s = _ from (post_side_same hu _).trans e] at up
  rw [e] at g
  exact (S _ up.1 up.2.1).2.2 g

end
end Verif.Ops
