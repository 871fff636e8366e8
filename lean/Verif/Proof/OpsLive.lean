import Verif.Proof.OpsSpread
import Verif.Model.OpsAll
set_option linter.unusedSimpArgs false
set_option linter.unusedVariables false
/-! Inserts wait for nobody but other inserts, and one of them can move. -/
namespace Verif.Ops
open Verif.Internode (upd upd_same upd_ne)
open Verif.Index (holds)
open Verif.Perm (size get)
open Verif.Tree (searchForInsert leafWidth Leaf)
open Verif.Whole (LAct WOk onLeaves raw lact isLocked beside inIndex Frame Inside)
variable {V : Type} {fixed strict : Bool}

section
variable {s : St V} {i : Nat}

theorem can_ph {y : Nat} {qs : List Nat} (h : (next s i y qs).2 ≠ s.ph i) : CanMove fixed strict s i := by
  refine ⟨y, qs, fun e => h ?_⟩
  have := congrArg (fun z => St.ph z i) e
  simp only [act, upd_same] at this
  exact this

theorem can_w {y : Nat} {qs : List Nat} (h : after fixed strict s.w (next s i y qs).1 ≠ s.w) : CanMove fixed strict s i := by
  refine ⟨y, qs, fun e => h ?_⟩
  have := congrArg (fun z => St.w z) e
  simp only [act] at this
  unfold after
  exact this

/-- A node of the index of a layer is locked. -/
def Barred (s : Whole.St V) : Prop :=
  ∃ L p, s.f.up L = true ∧ Index.Al (s.side L).ix.heap p ∧ ((s.side L).ix.heap.node p).locked = true

/-- A thread in the internodes that waits for nobody goes on. -/
theorem walk_none {L : Nat} (K : Know s.w) (hu : s.w.f.up L = true) (hi : inIndex ((s.w.side L).ix.pc i) = true) (hin : Inside s.w L i)
    (hw : Index.waits (s.w.side L).ix.heap ((s.w.side L).ix.pc i) = none) : Whole.act fixed strict s.w (.inLayer L (.walk i)) ≠ s.w := by
  have I : Index.Inv (L == 0) (s.w.side L).ix := (K.ok.ok L (K.ok.basic.made L hu)).F.I
  intro e
  have := congrArg (fun z => (Whole.St.side z L).ix.pc i) e
  rw [act_side hu] at this
  have eb : beside strict (L == 0) (s.w.lay L) (.walk i) = { s.w.side L with ix := Index.act strict (L == 0) (s.w.side L).ix (.run i) } := by
    simp only [beside]; exact if_pos hi
  rw [eb] at this
  simp only [Index.act, upd_same] at this
  exact Index.moves I.H (I.ok i) ⟨hin.1, hin.2, fun o e => K.fine L i o e⟩ hw this

/-- A thread in the internodes goes on or waits. -/
theorem walk_or {L : Nat} (K : Know s.w) (hu : s.w.f.up L = true) (hi : inIndex ((s.w.side L).ix.pc i) = true) (hin : Inside s.w L i) :
    Whole.act fixed strict s.w (.inLayer L (.walk i)) ≠ s.w ∨ Barred s.w := by
  have I : Index.Inv (L == 0) (s.w.side L).ix := (K.ok.ok L (K.ok.basic.made L hu)).F.I
  have ok := I.ok i
  by_cases hw : Index.waits (s.w.side L).ix.heap ((s.w.side L).ix.pc i) = none
  · exact .inl (walk_none K hu hi hin hw)
  · right
    cases ep : (s.w.side L).ix.pc i with
    | stab o r p =>
      rw [ep] at hw ok
      simp only [Index.waits] at hw
      refine ⟨L, p, hu, ok.2, ?_⟩
      split at hw
      · assumption
      · exact absurd rfl hw
    | lck c p =>
      rw [ep] at hw ok
      simp only [Index.waits] at hw
      refine ⟨L, p, hu, ok.2.1, ?_⟩
      split at hw
      · assumption
      · exact absurd rfl hw
    | look _ _ => rw [ep] at hi; cases hi
    | sect _ _ _ => rw [ep] at hi; cases hi
    | _ => rw [ep] at hw; exact absurd rfl hw

/-- A leaf is locked. -/
def Locked (s : Whole.St V) : Prop := ∃ L x, s.f.made L = true ∧ (s.f.layer L).hold x ≠ .free

variable {d : Spec.Bytes} {v : V}

theorem live_hold {L m x : Nat} (K : Know s.w) (h : Own s.w d L m i x) (hn : (Whole.act fixed strict s.w (.inLayer L (.hold i))) = s.w) :
    (Chain.hstep (s.w.f.layer L) x).hold x = (s.w.f.layer L).hold x := by
  have := congrArg (fun z => ((Whole.St.f z).layer L).hold x) hn
  rw [post_layer_same h.place.up] at this
  unfold lact at this
  rw [hold_on h] at this
  exact this

/-- On the way down. -/
def Ph.isDown : Ph V → Bool
  | .down _ _ => true
  | _ => false

/-- What an insert does next changes something, or it waits. -/
theorem put_live (K : Know s.w) (R : Room s.w.f) (Nx : NoNxt s.w) (S : Spread s.w i (s.ph i)) (Lk : LockOk s.w i (s.ph i))
    (fr : ∀ L x, s.w.f.made L = true → (s.w.f.layer L).live x = true → (s.w.f.layer L).hold x = .free →
      NV.lockable ((s.w.f.layer L).leaf x).word = true ∧ ((s.w.f.layer L).leaf x).mark = false)
    (ho : s.op i = .insert d v) (hb : (s.ph i).over = false) (P : PutOk s.w d v i (s.ph i)) :
    CanMove fixed strict s i ∨ parting s i = true ∨ (Barred s.w ∧ ((s.ph i).isProp || (s.ph i).isDown) = true) ∨
      (Locked s.w ∧ (s.ph i).isDown = true ∧ ∀ L x, ¬ keeps s.w i (s.ph i) L x) := by
  cases hp : s.ph i with
  | idle => rw [hp] at hb; cases hb
  | ret r => rw [hp] at hb; cases hb
  | err => rw [hp] at P; exact P.elim
  | read L m => rw [hp] at P; exact P.elim
  | enter L m => exact .inl (can_ph (y := 0) (qs := []) (by unfold next; rw [ho, hp]; dsimp only; nofun))
  | undo L m x => exact .inl (can_ph (y := 0) (qs := []) (by unfold next; rw [ho, hp]; dsimp only; nofun))
  | publish L m x pos off => exact .inl (can_ph (y := 0) (qs := []) (by unfold next; rw [ho, hp]; dsimp only; nofun))
  | close L x a => exact .inl (can_ph (y := 0) (qs := []) (by unfold next; rw [ho, hp]; dsimp only; nofun))
  | count => exact .inl (can_ph (y := 0) (qs := []) (by unfold next; rw [ho, hp]; dsimp only; nofun))
  | drop L x a => exact .inl (can_ph (y := 0) (qs := []) (by unfold next; rw [ho, hp]; cases a <;> nofun))
  | store L m x t pos off n =>
    refine .inl (can_ph (y := 0) (qs := []) ?_)
    unfold next; rw [ho, hp]; dsimp only
    split
    · intro e; injection e with _ _ _ _ _ _ e; omega
    · nofun
  | conv L m x =>
    rw [hp] at P
    obtain ⟨lv, t, q, st, j, P, eh, hst, _⟩ := P
    left
    by_cases h4 : st < 4
    · refine can_w (y := 0) (qs := []) ?_
      unfold next; rw [ho, hp]; dsimp only
      intro g
      have := live_hold K P g
      simp only [Chain.hstep, eh, upd_same, Chain.convNext, if_pos h4] at this
      injection this with _ _ _ e
      omega
    · refine can_ph (y := 0) (qs := []) ?_
      unfold next; rw [ho, hp]; dsimp only
      simp only [eh, if_neg h4]
      nofun
  | freeze L m x sp =>
    rw [hp] at P
    obtain ⟨P, _⟩ := P
    by_cases he : ((s.w.f.layer L).leaf x).b.ikey (get 5 ((s.w.f.layer L).leaf x).b.perm (sp - 1)) < ((s.w.f.layer L).leaf x).b.ikey (get 5 ((s.w.f.layer L).leaf x).b.perm sp)
    · left
      obtain ⟨B, hB⟩ := R.leaves L (K.ok.basic.made L P.place.up)
      refine can_ph (y := B + 1) (qs := []) ?_
      unfold next; rw [ho, hp]; dsimp only
      rw [if_pos ⟨hB _ (by omega), by omega, he⟩]
      nofun
    · right; left
      unfold parting
      rw [hp]
      unfold equalAt
      simp only [Bool.not_eq_true', Nat.blt_eq]
      cases e : Nat.blt (((s.w.f.layer L).leaf x).b.ikey (get 5 ((s.w.f.layer L).leaf x).b.perm (sp - 1))) (((s.w.f.layer L).leaf x).b.ikey (get 5 ((s.w.f.layer L).leaf x).b.perm sp)) with
      | false => rfl
      | true => exact absurd (by rw [← Nat.blt_eq]; exact e) he
  | part L m x y =>
    rw [hp] at P
    obtain ⟨P, hn⟩ := P
    left
    cases eh : (s.w.f.layer L).hold x with
    | publish lv z =>
      refine can_ph (y := 0) (qs := []) ?_
      unfold next; rw [ho, hp]; dsimp only
      simp only [eh]
      nofun
    | take lv raw' sp z j =>
      refine can_w (y := 0) (qs := []) ?_
      unfold next; rw [ho, hp]; dsimp only
      intro g
      have := live_hold K P g
      simp only [Chain.hstep, eh] at this
      split at this <;> simp only [upd_same] at this <;> cases this
    | clear lv raw' sp z j =>
      refine can_w (y := 0) (qs := []) ?_
      unfold next; rw [ho, hp]; dsimp only
      intro g
      have := live_hold K P g
      simp only [Chain.hstep, eh] at this
      split at this <;> simp only [upd_same] at this <;> cases this
    | unfreeze lv raw' sp z =>
      refine can_w (y := 0) (qs := []) ?_
      unfold next; rw [ho, hp]; dsimp only
      intro g
      have := live_hold K P g
      simp only [Chain.hstep, eh, upd_same] at this; cases this
    | mark lv z =>
      refine can_w (y := 0) (qs := []) ?_
      unfold next; rw [ho, hp]; dsimp only
      intro g
      have := live_hold K P g
      simp only [Chain.hstep, eh, upd_same] at this; cases this
    | setNext lv z =>
      refine can_w (y := 0) (qs := []) ?_
      unfold next; rw [ho, hp]; dsimp only
      intro g
      have := live_hold K P g
      simp only [Chain.hstep, eh, upd_same] at this; cases this
    | _ => rw [eh] at hn; cases hn
  | prop L m x z n =>
    rw [hp] at P S Lk
    obtain ⟨P, hn⟩ := P
    obtain ⟨h1, h2, h3⟩ := S
    obtain ⟨_, l2, _, _⟩ := Lk
    have nx : next s i 0 [] = spread s.w L m i x z n := by unfold next; rw [hp]
    simp only [spread] at nx
    by_cases c0 : n = 0 ∧ ((s.w.side L).ix.heap.node ((s.w.side L).num z)).locked = false
    · rw [if_pos c0] at nx
      refine .inl (can_ph (y := 0) (qs := []) ?_)
      rw [nx, hp]
      intro e; injection e with _ _ _ _ e; omega
    · rw [if_neg c0] at nx
      by_cases c1 : n = 1 ∧ ((s.w.side L).ix.heap.node ((s.w.side L).num x)).locked = false
      · rw [if_pos c1] at nx
        refine .inl (can_ph (y := 0) (qs := []) ?_)
        rw [nx, hp]
        intro e; injection e with _ _ _ _ e; omega
      · rw [if_neg c1] at nx
        by_cases c2 : ∃ o r, (s.w.side L).ix.pc i = .climb o r
        · obtain ⟨o, r, c2⟩ := c2
          rw [c2] at nx h2 h3
          have : n = 2 := by
            by_cases g0 : n = 0
            · exfalso
              refine absurd (h2 (by omega) ?_) (by simp [holds])
              cases e : ((s.w.side L).ix.heap.node ((s.w.side L).num z)).locked with
              | true => rfl
              | false => exact absurd ⟨g0, e⟩ c0
            · by_cases g1 : n = 1
              · exfalso
                refine absurd (h3 (by omega) ?_) (by simp [holds])
                cases e : ((s.w.side L).ix.heap.node ((s.w.side L).num x)).locked with
                | true => rfl
                | false => exact absurd ⟨g1, e⟩ c1
              · omega
          simp only [if_pos this] at nx
          refine .inl (can_ph (y := 0) (qs := []) ?_)
          rw [nx, hp]; nofun
        · have hi : inIndex ((s.w.side L).ix.pc i) = true := by
            revert h1; cases (s.w.side L).ix.pc i <;> simp [turning, inIndex]
          rcases walk_or (fixed := fixed) (strict := strict) K P.place.up hi P.inside with g | g
          · refine .inl (can_w (y := 0) (qs := []) ?_)
            rw [nx]
            split
            · rename_i e; exact absurd ⟨_, _, e⟩ c2
            · rename_i e; rw [e] at h1; cases h1
            · exact g
          · exact .inr (.inr (.inl ⟨g, rfl⟩))
  | down L m =>
    rw [hp] at P
    obtain ⟨P, hl⟩ := P
    have hu := P.place.up
    have hm := K.ok.basic.made L hu
    have C := K.ok.ok L hm
    have nx : ∀ y qs, next s i y qs = down s.w (.insert d v) L m i qs := by intro y qs; unfold next; rw [ho, hp]
    simp only [down] at nx
    cases ep : (s.w.side L).ix.pc i with
    | look o n => exact absurd ep (P.look _ _)
    | nxt o l => exact absurd ep (Nx L i o l)
    | fail o e => exact absurd ep (K.fine _ _ _ _)
    | idle => exact absurd ep P.inside.1
    | done o r => exact absurd ep (P.inside.2 _ _)
    | adv o r h n =>
      refine .inl (can_w (y := 0) (qs := []) ?_)
      rw [nx, ep]
      intro g
      have := congrArg (fun z => (Whole.St.side z L).ix.pc i) g
      simp only [after] at this
      rw [act_side hu] at this
      simp only [beside, show (s.w.lay L).s.ix.pc i = _ from ep, Whole.Side.goto, Whole.Side.move, upd_same] at this
      rw [show (s.w.side L).ix.pc i = _ from ep] at this
      cases this
    | sect o r n =>
      have io := C.ins i o r n ep
      have sd : ∀ {b}, (Whole.act fixed strict s.w (.inLayer L (.step i))) = s.w → beside strict (L == 0) (s.w.lay L) (.step i) = b → s.w.side L = b := by
        intro b g e
        have := congrArg (fun z => (Whole.St.side z L)) g
        rw [act_side hu, e] at this
        exact this.symm
      have ng : ∀ {ip}, (s.w.side L).ins i = ip → ip.grip = none → ∀ K' x, ¬ keeps s.w i (.down L m) K' x := by
        intro ip e g K' x k
        have := k.2.2
        rw [e, g] at this
        cases this
      cases ei : (s.w.side L).ins i with
      | own x =>
        have eo : (s.w.side L).owns i = some x := by simp only [Whole.Side.owns, ep, ei]
        have hl := hl x eo
        have O : Own s.w d L m i x := ⟨P, eo⟩
        left
        rw [ep] at nx
        simp only [eo] at nx
        cases hf : searchForInsert ((s.w.f.layer L).leaf x).b (kat d m) 0 (size 5 ((s.w.f.layer L).leaf x).b.perm) with
        | conflict t =>
          obtain ⟨qs, bs, hc⟩ := conflict_some (v := v) K R O hl hf
          refine can_ph (y := 0) (qs := qs) ?_
          rw [nx, hp]
          unfold decide
          simp only [hf, hc]
          nofun
        | found t =>
          refine can_ph (y := 0) (qs := []) ?_
          rw [nx, hp]
          unfold decide
          simp only [hf]
          split <;> nofun
        | layer t =>
          refine can_ph (y := 0) (qs := []) ?_
          rw [nx, hp]
          unfold decide
          simp only [hf]
          split <;> nofun
        | notFound pos =>
          refine can_ph (y := 0) (qs := []) ?_
          rw [nx, hp]
          unfold decide splitOr
          simp only [hf]
          repeat' split
          all_goals nofun
      | adv h x =>
        have eo : (s.w.side L).owns i = none := by simp only [Whole.Side.owns, ep, ei]
        rw [ep] at nx
        simp only [eo] at nx
        have io : Whole.InsOk (s.w.f.layer L) o.key ((s.w.side L).ins i) := io
        rw [ei] at io
        have busy : ∀ x, (s.w.f.layer L).live x = true → (NV.lockable ((s.w.f.layer L).leaf x).word = true → ((s.w.f.layer L).leaf x).mark = true) → Locked s.w := by
          intro x hx h
          refine ⟨L, x, hm, fun g => ?_⟩
          have := fr L x hm hx g
          rw [h this.1] at this
          cases this.2
        have go : ∀ b, beside strict (L == 0) (s.w.lay L) (.step i) = b → (b.ix.pc i ≠ (s.w.side L).ix.pc i ∨ b.ins i ≠ (s.w.side L).ins i) → CanMove fixed strict s i := by
          intro b e hb
          refine can_w (y := 0) (qs := []) ?_
          rw [nx]
          intro g
          have := sd g e
          rw [this] at hb
          rcases hb with hb | hb <;> exact hb rfl
        have e1 : (s.w.lay L).s.ix.pc i = .sect o r n := ep
        have e2 := ei
        change (s.w.lay L).s.ins i = _ at e2
        by_cases h0 : h = 0
        · refine .inl (go _ rfl (.inl ?_))
          simp only [beside, e1, e2, if_pos h0, Whole.Side.goto, upd_same, ep]
          nofun
        · by_cases hk : ((s.w.lay L).c.leaf x).mark = true
          · exact .inr (.inr (.inr ⟨busy x io.1 (fun _ => hk), rfl, ng ei rfl⟩))
          · refine .inl (go _ rfl (.inr ?_))
            simp only [beside, e1, e2, if_neg h0]
            rw [if_neg hk]
            split <;> simp only [Whole.Side.move, upd_same, ei] <;> nofun
      | bound h x z =>
        have eo : (s.w.side L).owns i = none := by simp only [Whole.Side.owns, ep, ei]
        rw [ep] at nx
        simp only [eo] at nx
        have io : Whole.InsOk (s.w.f.layer L) o.key ((s.w.side L).ins i) := io
        rw [ei] at io
        have busy : ∀ x, (s.w.f.layer L).live x = true → (NV.lockable ((s.w.f.layer L).leaf x).word = true → ((s.w.f.layer L).leaf x).mark = true) → Locked s.w := by
          intro x hx h
          refine ⟨L, x, hm, fun g => ?_⟩
          have := fr L x hm hx g
          rw [h this.1] at this
          cases this.2
        have go : ∀ b, beside strict (L == 0) (s.w.lay L) (.step i) = b → (b.ix.pc i ≠ (s.w.side L).ix.pc i ∨ b.ins i ≠ (s.w.side L).ins i) → CanMove fixed strict s i := by
          intro b e hb
          refine can_w (y := 0) (qs := []) ?_
          rw [nx]
          intro g
          have := sd g e
          rw [this] at hb
          rcases hb with hb | hb <;> exact hb rfl
        have e1 : (s.w.lay L).s.ix.pc i = .sect o r n := ep
        have e2 := ei
        change (s.w.lay L).s.ins i = _ at e2
        refine .inl (go _ rfl (.inr ?_))
        simp only [beside, e1, e2]
        split <;> simp only [Whole.Side.move, upd_same, ei] <;> nofun
      | lock x =>
        have eo : (s.w.side L).owns i = none := by simp only [Whole.Side.owns, ep, ei]
        rw [ep] at nx
        simp only [eo] at nx
        have io : Whole.InsOk (s.w.f.layer L) o.key ((s.w.side L).ins i) := io
        rw [ei] at io
        have busy : ∀ x, (s.w.f.layer L).live x = true → (NV.lockable ((s.w.f.layer L).leaf x).word = true → ((s.w.f.layer L).leaf x).mark = true) → Locked s.w := by
          intro x hx h
          refine ⟨L, x, hm, fun g => ?_⟩
          have := fr L x hm hx g
          rw [h this.1] at this
          cases this.2
        have go : ∀ b, beside strict (L == 0) (s.w.lay L) (.step i) = b → (b.ix.pc i ≠ (s.w.side L).ix.pc i ∨ b.ins i ≠ (s.w.side L).ins i) → CanMove fixed strict s i := by
          intro b e hb
          refine can_w (y := 0) (qs := []) ?_
          rw [nx]
          intro g
          have := sd g e
          rw [this] at hb
          rcases hb with hb | hb <;> exact hb rfl
        have e1 : (s.w.lay L).s.ix.pc i = .sect o r n := ep
        have e2 := ei
        change (s.w.lay L).s.ins i = _ at e2
        by_cases hk : NV.lockable ((s.w.lay L).c.leaf x).word = true
        · refine .inl (go _ rfl (.inr ?_))
          simp only [beside, e1, e2]
          rw [if_pos hk]
          simp only [Whole.Side.move, upd_same, ei]
          nofun
        · exact .inr (.inr (.inr ⟨busy x io.1 (fun g => absurd g hk), rfl, ng ei rfl⟩))
      | check x =>
        have eo : (s.w.side L).owns i = none := by simp only [Whole.Side.owns, ep, ei]
        rw [ep] at nx
        simp only [eo] at nx
        have io : Whole.InsOk (s.w.f.layer L) o.key ((s.w.side L).ins i) := io
        rw [ei] at io
        have busy : ∀ x, (s.w.f.layer L).live x = true → (NV.lockable ((s.w.f.layer L).leaf x).word = true → ((s.w.f.layer L).leaf x).mark = true) → Locked s.w := by
          intro x hx h
          refine ⟨L, x, hm, fun g => ?_⟩
          have := fr L x hm hx g
          rw [h this.1] at this
          cases this.2
        have go : ∀ b, beside strict (L == 0) (s.w.lay L) (.step i) = b → (b.ix.pc i ≠ (s.w.side L).ix.pc i ∨ b.ins i ≠ (s.w.side L).ins i) → CanMove fixed strict s i := by
          intro b e hb
          refine can_w (y := 0) (qs := []) ?_
          rw [nx]
          intro g
          have := sd g e
          rw [this] at hb
          rcases hb with hb | hb <;> exact hb rfl
        have e1 : (s.w.lay L).s.ix.pc i = .sect o r n := ep
        have e2 := ei
        change (s.w.lay L).s.ins i = _ at e2
        by_cases hk : Whole.moved (s.w.lay L).c x o.key = true
        · refine .inl (go _ rfl (.inl ?_))
          simp only [beside, e1, e2, if_pos hk, Whole.Side.goto, upd_same, ep]
          nofun
        · refine .inl (go _ rfl (.inr ?_))
          simp only [beside, e1, e2, if_neg hk, Whole.Side.move, upd_same, ei]
          nofun
    | _ =>
      have hi : inIndex ((s.w.side L).ix.pc i) = true := by rw [ep]; rfl
      rcases walk_or (fixed := fixed) (strict := strict) K P.place.up hi P.inside with g | g
      · refine .inl (can_w (y := 0) (qs := []) ?_)
        rw [nx, ep]
        exact g
      · exact .inr (.inr (.inl ⟨g, rfl⟩))
end

section
variable {τ : Nat → St V} {β : Nat → Option (Act V)} {N : Nat}

theorem no_holds {pc : Index.Pc Unit} (h : GetPc pc) : holds pc = [] := by
  cases pc <;> first | rfl | exact h.elim

theorem home_holds {s : Whole.St V} {L i : Nat} (h : Home s L i) : holds ((s.side L).ix.pc i) = [] := by
  cases e : (s.side L).ix.pc i with
  | idle => rfl
  | done _ _ => rfl
  | _ => exact absurd ⟨by rw [e]; nofun, by rw [e]; nofun⟩ h.out

theorem own_holds {s : Whole.St V} {d : Spec.Bytes} {L m i x K : Nat} (h : Own s d L m i x) : holds ((s.side K).ix.pc i) = [] := by
  by_cases e : K = L
  · subst e
    have := h.owns
    unfold Whole.Side.owns at this
    split at this
    · rename_i hp _; rw [hp]; rfl
    · cases this
  · exact home_holds (h.away K e)

theorem holds_in {pc : Index.Pc Unit} (h : holds pc ≠ []) : inIndex pc = true := by
  cases pc <;> first | rfl | exact absurd rfl h

/-- Who keeps a leaf is an insert under way. -/
theorem keeps_inserting {s : St V} {i L x : Nat} (P : PhOk s.w (s.op i) i (s.ph i)) (h : keeps s.w i (s.ph i) L x)
    (G : ∀ d, s.op i = .get d → ∀ L, GetPc ((s.w.side L).ix.pc i)) : Inserting s i := by
  cases eo : s.op i with
  | insert d v =>
    refine ⟨?_, d, v, eo⟩
    cases hp : s.ph i <;> first | rfl | (rw [hp] at h; exact h.elim)
  | get d =>
    rw [eo] at P
    cases hp : s.ph i with
    | down L' m =>
      rw [hp] at h
      have := G d eo L'
      obtain ⟨_, ⟨o, r, n, g⟩, _⟩ := h
      rw [g] at this; exact this.elim
    | _ => rw [hp] at h P; first | exact h.elim | exact P.elim

/-- In an execution an insert that is under way can move, or is about to split its leaf between equal slices, or waits. -/
theorem Exec.put_live (E : Exec fixed strict τ β) (C : Clean strict τ β N) {n i : Nat} (hn : n ≤ N) (hi : Inserting (τ n) i) :
    CanMove fixed strict (τ n) i ∨ parting (τ n) i = true ∨ (Barred (τ n).w ∧ (((τ n).ph i).isProp || ((τ n).ph i).isDown) = true) ∨
      (Locked (τ n).w ∧ ((τ n).ph i).isDown = true ∧ ∀ L x, ¬ keeps (τ n).w i ((τ n).ph i) L x) := by
  obtain ⟨hb, d, v, ho⟩ := hi
  have P := E.phases C n hn i
  rw [ho] at P
  have K := E.know C hn
  exact Ops.put_live K (E.room C n hn) (E.noNxt n) (E.spread C n hn i) ((E.locks C n hn).ok i)
    (fun L x hm hl hf => E.leaf_free C hn hm ((K.ok.ok L hm).C.used x hl) hf) ho hb P

/-- Who holds a node of the index and does not wait for another can move. -/
theorem Exec.holder (E : Exec fixed strict τ β) (C : Clean strict τ β N) {n : Nat} (hn : n ≤ N) {L j : Nat} (hu : (τ n).w.f.up L = true)
    (hj : holds (((τ n).w.side L).ix.pc j) ≠ []) (hw : Index.waits ((τ n).w.side L).ix.heap (((τ n).w.side L).ix.pc j) = none) :
    Inserting (τ n) j ∧ CanMove fixed strict (τ n) j := by
  have K := E.know C hn
  have P := E.phases C n hn j
  cases eo : (τ n).op j with
  | get d => exact absurd (no_holds ((E.locks C n hn).get j d eo L)) hj
  | insert d v =>
    rw [eo] at P
    have here : ∀ {L' m}, Here (τ n).w d L' m j → L' = L := by
      intro L' m h
      by_cases e : L' = L
      · exact e
      · exact absurd (home_holds (h.away L (Ne.symm e))) hj
    have go : ∀ {m}, Here (τ n).w d L m j → Whole.act fixed strict (τ n).w (.inLayer L (.walk j)) ≠ (τ n).w :=
      fun h => walk_none K hu (holds_in hj) h.inside hw
    refine ⟨⟨?_, d, v, eo⟩, ?_⟩
    · cases ep : (τ n).ph j with
      | idle => rw [ep] at P; exact absurd (home_holds (P L)) hj
      | ret r => rw [ep] at P; exact absurd (home_holds (P L)) hj
      | _ => rfl
    · cases ep : (τ n).ph j with
      | idle => rw [ep] at P; exact absurd (home_holds (P L)) hj
      | ret r => rw [ep] at P; exact absurd (home_holds (P L)) hj
      | count => rw [ep] at P; exact absurd (home_holds (P L)) hj
      | err => rw [ep] at P; exact P.elim
      | read _ _ => rw [ep] at P; exact P.elim
      | enter _ _ => rw [ep] at P; exact absurd (home_holds (P.1 L)) hj
      | drop _ _ _ => rw [ep] at P; exact absurd (home_holds (P.1 L)) hj
      | close _ _ _ => rw [ep] at P; exact absurd (own_holds P.1.choose_spec) hj
      | store _ _ _ _ _ _ _ => rw [ep] at P; exact absurd (own_holds P.1) hj
      | publish _ _ _ _ _ => rw [ep] at P; exact absurd (own_holds P.1) hj
      | freeze _ _ _ _ => rw [ep] at P; exact absurd (own_holds P.1) hj
      | part _ _ _ _ => rw [ep] at P; exact absurd (own_holds P.1) hj
      | conv _ _ _ => rw [ep] at P; obtain ⟨_, _, _, _, _, P, _⟩ := P; exact absurd (own_holds P) hj
      | undo L' m x => exact can_ph (y := 0) (qs := []) (by unfold next; rw [eo, ep]; dsimp only; nofun)
      | down L' m =>
        rw [ep] at P
        have := here P.1
        subst this
        refine can_w (y := 0) (qs := []) ?_
        have : next (τ n) j 0 [] = (some (.inLayer L' (.walk j)), .down L' m) := by
          unfold next; rw [eo, ep]
          show down _ _ _ _ _ _ = _
          unfold down
          cases e : ((τ n).w.side L').ix.pc j <;> first | rfl | (rw [e] at hj; exact absurd rfl hj)
        rw [this]
        exact go P.1
      | prop L' m x y q =>
        rw [ep] at P
        have := here P.1
        subst this
        by_cases h0 : q = 0 ∧ (((τ n).w.side L').ix.heap.node (((τ n).w.side L').num y)).locked = false
        · refine can_ph (y := 0) (qs := []) ?_
          unfold next; rw [eo, ep]; dsimp only; unfold Ops.spread
          rw [if_pos h0]
          intro e; injection e; omega
        · by_cases h1 : q = 1 ∧ (((τ n).w.side L').ix.heap.node (((τ n).w.side L').num x)).locked = false
          · refine can_ph (y := 0) (qs := []) ?_
            unfold next; rw [eo, ep]; dsimp only; unfold Ops.spread
            rw [if_neg h0, if_pos h1]
            intro e; injection e; omega
          · refine can_w (y := 0) (qs := []) ?_
            have : next (τ n) j 0 [] = (some (.inLayer L' (.walk j)), .prop L' m x y q) := by
              unfold next; rw [eo, ep]
              show Ops.spread _ _ _ _ _ _ _ = _
              unfold Ops.spread
              rw [if_neg h0, if_neg h1]
              cases e : ((τ n).w.side L').ix.pc j <;> first | rfl | (rw [e] at hj; exact absurd rfl hj)
            rw [this]
            exact go P.1

/-- Somebody who holds a node of the index does not wait for another. -/
theorem Exec.holds_one (E : Exec fixed strict τ β) (C : Clean strict τ β N) {n : Nat} (hn : n ≤ N) (h : Barred (τ n).w) :
    ∃ L j, (τ n).w.f.up L = true ∧ holds (((τ n).w.side L).ix.pc j) ≠ [] ∧ Index.waits ((τ n).w.side L).ix.heap (((τ n).w.side L).ix.pc j) = none := by
  obtain ⟨L, p, hu, hp, hl⟩ := h
  have K := E.know C hn
  have I : Index.Inv (L == 0) ((τ n).w.side L).ix := (K.ok.ok L (K.ok.basic.made L hu)).F.I
  obtain ⟨j, hj, hw⟩ := Index.holder_moves (strict := strict) I (((((τ n).w.side L).ix.heap.node ((τ n).w.side L).ix.heap.top).ht) + 1) p hp hl (by omega)
  exact ⟨L, j, hu, hj, hw⟩

theorem Exec.barred (E : Exec fixed strict τ β) (C : Clean strict τ β N) {n : Nat} (hn : n ≤ N) (h : Barred (τ n).w) :
    ∃ k, Inserting (τ n) k ∧ CanMove fixed strict (τ n) k := by
  obtain ⟨L, j, hu, hj, hw⟩ := E.holds_one C hn h
  exact ⟨j, E.holder C hn hu hj hw⟩

/-- Some insert can move, or is about to split its leaf between equal slices. -/
theorem Exec.live (E : Exec fixed strict τ β) (C : Clean strict τ β N) {n i : Nat} (hn : n ≤ N) (hi : Inserting (τ n) i) :
    ∃ k, Inserting (τ n) k ∧ (CanMove fixed strict (τ n) k ∨ parting (τ n) k = true) := by
  rcases E.put_live C hn hi with g | g | ⟨g, _⟩ | ⟨g, _⟩
  · exact ⟨i, hi, .inl g⟩
  · exact ⟨i, hi, .inr g⟩
  · obtain ⟨k, h1, h2⟩ := E.barred C hn g
    exact ⟨k, h1, .inl h2⟩
  · obtain ⟨L, x, hm, hx⟩ := g
    have H := E.locks C n hn
    obtain ⟨k, hk⟩ := H.keep L x hm hx
    have ik := keeps_inserting (E.phases C n hn k) hk (fun d e => H.get k d e)
    rcases E.put_live C hn ik with g | g | ⟨g, _⟩ | ⟨_, _, g⟩
    · exact ⟨k, ik, .inl g⟩
    · exact ⟨k, ik, .inr g⟩
    · obtain ⟨k, h1, h2⟩ := E.barred C hn g
      exact ⟨k, h1, .inl h2⟩
    · exact absurd hk (g L x)
end

end Verif.Ops
