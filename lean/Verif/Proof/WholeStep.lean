import Verif.Proof.WholeLay
import Verif.Prop.ChainRace
set_option linter.unusedSimpArgs false
set_option linter.unusedVariables false
/-! Every step in a layer is a step of its leaves as `Model/ChainRace.lean` has them. -/
namespace Verif.Whole
open Verif.Internode (upd upd_same upd_ne)
open Verif.Index (Al Full holds PcOk ROk Calm Failed)
open Verif.Perm (size get)
variable {V : Type}

theorem owns_some {s : Side} {i x : Nat} (h : s.owns i = some x) : (∃ o r n, s.ix.pc i = .sect o r n) ∧ s.ins i = .own x := by
  unfold Side.owns at h
  split at h
  · rename_i a b; cases h; exact ⟨⟨_, _, _, a⟩, b⟩
  · cases h

theorem isLocked_iff {h : Chain.HPc} (e : isLocked h = true) : ∃ lv, h = .locked lv := by
  cases h with
  | locked lv => exact ⟨lv, rfl⟩
  | _ => cases e

theorem free_of_lockable {c : Chain.St V} (h : Chain.Inv c) {x : Nat} (hl : NV.lockable (c.leaf x).word = true) : c.hold x = .free := by
  apply h.free_of_clean
  cases hd : NV.isDirty (c.leaf x).word with
  | false => rfl
  | true => rw [Cas.not_lockable hd] at hl; cases hl

section
variable {main : Bool} {l : Lay V}

/-- An owner works on its leaf. -/
theorem LOk.work (h : LOk main l) (fixed : Bool) {i x : Nat} (ho : l.s.owns i = some x) (b : Chain.Act V) (hw : working b = true) (ht : target b = x)
    (hl : links l.c b = false) : LOk main ⟨Chain.act fixed l.c b, l.s⟩ := by
  obtain ⟨⟨o, r, n, hp⟩, ho⟩ := owns_some ho
  subst ht
  have q := h.grip (i := i) ⟨o, r, n, hp⟩ (x := target b) (by rw [ho]; rfl)
  refine h.chain (h.C.act fixed b) (tame h.C fixed b hl) ?_ ?_
  · intro hx hk
    rw [leaving_held (h.busy _ hx hk)] at q; cases q.2
  · intro j hj
    refine ⟨fun e => ?_, fun _ => held_act fixed b hl hw q.2⟩
    have := h.excl j i _ hj ⟨o, r, n, hp⟩ (by rw [e]; rfl) (by rw [ho]; rfl)
    subst this
    rw [ho] at e; cases e

/-- Something happens to a leaf that no insert has locked. -/
theorem LOk.loose (h : LOk main l) (fixed : Bool) (b : Chain.Act V) (hl : links l.c b = false)
    (hg : ∀ i, l.s.inside i → (l.s.ins i).grip ≠ some (target b))
    (hb : l.c.live (target b) = true → (l.s.ix.heap.node (l.s.num (target b))).locked = true → leaving ((Chain.act fixed l.c b).hold (target b)) = true) :
    LOk main ⟨Chain.act fixed l.c b, l.s⟩ := by
  refine h.chain (h.C.act fixed b) (tame h.C fixed b hl) hb ?_
  intro j hj
  exact ⟨fun e => absurd (by rw [e]; rfl) (hg j hj), fun e => absurd (by rw [e]; rfl) (hg j hj)⟩

theorem LOk.nobody (h : LOk main l) {x : Nat} (hx : held (l.c.hold x) = false) : ∀ i, l.s.inside i → (l.s.ins i).grip ≠ some x := by
  intro i hi hg
  have := (h.grip hi hg).2
  rw [hx] at this; cases this

theorem LOk.nobody0 (h : LOk main l) : ∀ i, l.s.inside i → (l.s.ins i).grip ≠ some 0 := by
  intro i hi hg
  have := (h.grip hi hg).1
  rw [h.C.zero] at this; cases this

/-- An insert drops the lock of its leaf and goes on elsewhere. -/
theorem LOk.drop (h : LOk main l) (fixed : Bool) {i x : Nat} {o : Index.Op Unit} {r n : Nat} {p : Index.Pc Unit} (hp : l.s.ix.pc i = .sect o r n)
    (hg : (l.s.ins i).grip = some x) (hk : isLocked (l.c.hold x) = true) (h2 : holds p = []) (h3 : PcOk main l.s.ix.heap p)
    (h4 : ROk l.s.ix.heap p) (h5 : p.op = some o) (h6 : ∀ o r n, p ≠ .sect o r n) :
    LOk main ⟨Chain.act fixed l.c (.giveUp x), l.s.goto i p⟩ := by
  have h1 : LOk main ⟨l.c, l.s.goto i p⟩ := by
    refine h.goto (by rw [hp]; rfl) h2 h3 h4 ?_ (fun o r n e => absurd e (h6 o r n))
    intro o' e; rw [h5] at e; cases e; exact h.key i o (by rw [hp]; rfl)
  refine h1.loose fixed (.giveUp x) rfl ?_ ?_
  · rintro j ⟨o', r', n', hj⟩ gj
    have gj : (l.s.ins j).grip = some x := gj
    have hj : upd l.s.ix.pc i p j = .sect o' r' n' := hj
    by_cases e : j = i
    · subst e; rw [upd_same] at hj; exact h6 _ _ _ hj
    · rw [upd_ne _ _ _ e] at hj
      exact e (h.excl j i x ⟨_, _, _, hj⟩ ⟨_, _, _, hp⟩ gj hg)
  · intro _ _
    obtain ⟨lv, e⟩ := isLocked_iff hk
    show leaving ((Chain.act fixed l.c (.giveUp x)).hold x) = true
    simp only [Chain.act, e]
    rw [upd_same]; rfl

/-- An insert locks a leaf. -/
theorem LOk.take (h : LOk main l) (fixed : Bool) {i x : Nat} {o : Index.Op Unit} {r n : Nat} (hp : l.s.ix.pc i = .sect o r n)
    (hi : l.s.ins i = .lock x) (hk : NV.lockable (l.c.leaf x).word = true) :
    LOk main ⟨Chain.act fixed l.c (.lock x), l.s.move i (.check x)⟩ ∧ raw fixed l.c (.lock x) = Chain.act fixed l.c (.lock x) := by
  have hf := free_of_lockable h.C hk
  have q := h.ins i o r n hp
  rw [hi] at q
  have hn := h.nobody (x := x) (by rw [hf]; rfl)
  have hx : (Chain.act fixed l.c (.lock x)).hold x = .locked (NV.lockedOf (l.c.leaf x).word) := by
    simp only [Chain.act, q.1, hk, and_self, if_true]; rw [upd_same]
  have T := tame h.C fixed (.lock x) rfl
  have h1 : LOk main ⟨Chain.act fixed l.c (.lock x), l.s⟩ := by
    refine h.loose fixed (.lock x) rfl hn ?_
    intro _ hb
    have := h.busy x q.1 hb
    rw [hf] at this; cases this
  refine ⟨h1.move ?_ ?_, ?_⟩
  · intro o' r' n' hp'
    have hp' : l.s.ix.pc i = .sect o' r' n' := hp'
    rw [hp] at hp'; cases hp'
    refine ⟨by show (Chain.act fixed l.c (.lock x)).live x = true; rw [T.live]; exact q.1, ?_, ?_⟩
    · show ((Chain.act fixed l.c (.lock x)).leaf x).lo ≤ _
      rw [T.lo _ q.1]; exact q.2
    · show isLocked ((Chain.act fixed l.c (.lock x)).hold x) = true
      rw [hx]; rfl
  · intro z hz j hj hjn
    cases hz
    exact hn j hjn
  · simp only [raw, Chain.act, q.1, hk, and_self, if_true]

theorem owns_pc {s : Side} {i x : Nat} {o : Index.Op Unit} {r n : Nat} (h1 : s.ix.pc i = .sect o r n) (h2 : s.ins i = .own x) : s.owns i = some x := by
  unfold Side.owns; rw [h1, h2]

/-- What is to be shown of a step. -/
def Good (fixed strict main : Bool) (l : Lay V) (a : LAct V) : Prop :=
  LOk main (lact fixed strict main l a) ∧
    (lact fixed strict main l a).c = match onLeaves l a with | none => l.c | some b => Chain.act fixed l.c b

theorem good_none {fixed strict : Bool} {a : LAct V} {s' : Side} (e1 : onLeaves l a = none) (e2 : beside strict main l a = s')
    (h : LOk main ⟨l.c, s'⟩) : Good fixed strict main l a := by
  unfold Good lact
  rw [e1, e2]; exact ⟨h, rfl⟩

theorem good_some {fixed strict : Bool} {a : LAct V} {s' : Side} {b : Chain.Act V} (e1 : onLeaves l a = some b)
    (e2 : beside strict main l a = s') (e3 : raw fixed l.c b = Chain.act fixed l.c b)
    (h : LOk main ⟨Chain.act fixed l.c b, s'⟩) : Good fixed strict main l a := by
  unfold Good lact
  rw [e1, e2]
  simp only [e3]
  exact ⟨h, trivial⟩

theorem good_enter {fixed strict : Bool} (h : LOk main l) (i : Nat) : Good fixed strict main l (.enter i) := by
  cases hp : l.s.ix.pc i with
  | look o n =>
    have ok := h.F.I.ok i
    have R := h.F.R i
    rw [hp] at ok R
    have hd := h.down n ok.1 ok.2
    have hk := h.key i o (by rw [hp]; rfl)
    have h1 : LOk main ⟨l.c, l.s.goto i (.done o none)⟩ := by
      refine h.goto (by rw [hp]; rfl) rfl trivial trivial ?_ (fun o r n e => by cases e)
      intro o' e; cases e; exact hk
    have hlo : (l.c.leaf (l.s.leaf n)).lo ≤ (l.s.key i).ikey := by rw [hd.2.1, ← hk]; exact R.1
    have h2 := h1.loose fixed (.start i (l.s.leaf n) (l.s.key i)) rfl h1.nobody0 (fun g => by
      have : l.c.live 0 = true := g
      rw [h.C.zero] at this; cases this)
    cases hr : l.c.rd i with
    | idle =>
      refine good_some (s' := l.s.goto i (.done o none)) ?_ ?_ ?_ h2
      · simp only [onLeaves, hp, hr]
      · simp only [beside, hp, hr]
      · simp only [raw, Chain.act, hr, hd.1, hlo, and_self, if_true]
    | done k r w =>
      refine good_some (s' := l.s.goto i (.done o none)) ?_ ?_ ?_ h2
      · simp only [onLeaves, hp, hr]
      · simp only [beside, hp, hr]
      · simp only [raw, Chain.act, hr, hd.1, hlo, and_self, if_true]
    | _ => exact good_none (s' := l.s) (by simp only [onLeaves, hp, hr]) (by simp only [beside, hp, hr]) h
  | adv o r g n =>
    have ok := h.F.I.ok i
    have R := h.F.R i
    rw [hp] at ok R
    have hd := h.down n ok.2.1 ok.2.2.1
    have hk := h.key i o (by rw [hp]; rfl)
    have h1 : LOk main ⟨l.c, l.s.move i (.adv g (l.s.leaf n))⟩ := by
      refine h.move ?_ ?_
      · intro o' r' n' e; rw [hp] at e; cases e
      · intro x hx; cases hx
    have i1 : (l.s.move i (.adv g (l.s.leaf n))).ins i = .adv g (l.s.leaf n) := upd_same _ _ _
    have h2 : LOk main ⟨l.c, (l.s.move i (.adv g (l.s.leaf n))).goto i (.sect o r n)⟩ := by
      refine h1.goto (show holds (l.s.ix.pc i) = [] by rw [hp]; rfl) rfl ok R ?_ ?_
      · intro o' e; cases e; exact hk
      · intro o' r' n' e
        cases e
        show InsOk l.c o.key ((l.s.move i (.adv g (l.s.leaf n))).ins i) ∧ ((l.s.move i (.adv g (l.s.leaf n))).ins i).grip = none
        rw [i1]
        exact ⟨⟨hd.1, by rw [hd.2.1]; exact R.2⟩, rfl⟩
    refine good_none (s' := (l.s.move i (.adv g (l.s.leaf n))).goto i (.sect o r n)) ?_ ?_ h2
    · simp only [onLeaves, hp]
    · simp only [beside, hp]; rfl
  | _ => exact good_none (s' := l.s) (by simp only [onLeaves, hp]) (by simp only [beside, hp]) h

theorem good_step {fixed strict : Bool} (h : LOk main l) (i : Nat) : Good fixed strict main l (.step i) := by
  cases hp : l.s.ix.pc i with
  | sect o r n =>
    have ok := h.F.I.ok i
    have R := h.F.R i
    rw [hp] at ok R
    have q := h.ins i o r n hp
    have hk := h.key i o (by rw [hp]; rfl)
    have mv : ∀ p : IPc, InsOk l.c o.key p → p.grip = none → LOk main ⟨l.c, l.s.move i p⟩ := by
      intro p hp1 hp2
      refine h.move ?_ ?_
      · intro o' r' n' e; rw [hp] at e; cases e; exact hp1
      · intro x hx; rw [hp2] at hx; cases hx
    have cl : LOk main ⟨l.c, l.s.goto i (.climb o (if main then l.s.ix.heap.root else r))⟩ := by
      refine h.goto (by rw [hp]; rfl) rfl ?_ ?_ ?_ (fun o r n e => by cases e)
      · split
        · exact h.F.I.H.rootAl
        · exact ok.1
      · split
        · exact h.F.O.rootLo
        · exact R.1
      · intro o' e; cases e; exact hk
    cases hi : l.s.ins i with
    | adv g x =>
      rw [hi] at q
      have eb : beside strict main l (.step i) = if g = 0 then l.s.goto i (.climb o (if main then l.s.ix.heap.root else r)) else if (l.c.leaf x).mark then l.s
          else if (l.c.leaf x).nx = 0 then l.s.move i (.lock x) else l.s.move i (.bound (g - 1) x (l.c.leaf x).nx) := by
        simp only [beside, hp, hi]
      refine good_none (by simp only [onLeaves, hp, hi]) eb ?_
      split
      · exact cl
      · split
        · exact h
        · split
          · exact mv _ q rfl
          · rename_i h0
            exact mv _ ⟨q.1, q.2, (h.C.link x q.1 h0).1⟩ rfl
    | bound g x z =>
      rw [hi] at q
      have eb : beside strict main l (.step i) = if (l.c.leaf z).lo ≤ o.key then l.s.move i (.adv g z) else l.s.move i (.lock x) := by
        simp only [beside, hp, hi]
      refine good_none (by simp only [onLeaves, hp, hi]) eb ?_
      split
      · rename_i hz; exact mv _ ⟨q.2.2, hz⟩ rfl
      · exact mv _ ⟨q.1, q.2.1⟩ rfl
    | lock x =>
      by_cases hw : NV.lockable (l.c.leaf x).word = true
      · obtain ⟨a, b⟩ := h.take fixed hp hi hw
        exact good_some (by simp only [onLeaves, hp, hi, if_pos hw]) (by simp only [beside, hp, hi, if_pos hw]) b a
      · exact good_none (s' := l.s) (by simp only [onLeaves, hp, hi, if_neg hw]) (by simp only [beside, hp, hi, if_neg hw]) h
    | check x =>
      rw [hi] at q
      by_cases hm : moved l.c x o.key = true
      · refine good_some (b := .giveUp x) (s' := l.s.goto i (.climb o r)) (by simp only [onLeaves, hp, hi, if_pos hm]) (by simp only [beside, hp, hi, if_pos hm]) rfl ?_
        exact h.drop fixed hp (by rw [hi]; rfl) q.2.2 rfl ok.1 R.1 rfl (by nofun)
      · refine good_none (s' := l.s.move i (.own x)) (by simp [onLeaves, hp, hi, hm]) (by simp only [beside, hp, hi, if_neg hm]) ?_
        refine h.move ?_ ?_
        · intro o' r' n' e
          rw [hp] at e; cases e
          refine ⟨q.1, q.2.1, isLocked_held q.2.2, ?_⟩
          intro h0
          simp only [moved, Bool.or_eq_true, decide_eq_true_eq, not_or, not_and] at hm
          have := hm.2 h0
          omega
        · intro z hz j hj hjn gj
          cases hz
          exact hj (h.excl j i x hjn ⟨o, r, n, hp⟩ gj (by rw [hi]; rfl))
    | own x => exact good_none (s' := l.s) (by simp only [onLeaves, hp, hi]) (by simp only [beside, hp, hi]) h
  | _ => exact good_none (s' := l.s) (by simp only [onLeaves, hp]) (by simp only [beside, hp]) h

/-- A step that the owner of a leaf makes, and that does not link a new leaf. -/
theorem good_work {fixed strict : Bool} (h : LOk main l) {a : LAct V} {i : Nat} (b : Nat → Chain.Act V)
    (e1 : onLeaves l a = (l.s.owns i).map b) (e2 : beside strict main l a = l.s) (hw : ∀ x, working (b x) = true) (ht : ∀ x, target (b x) = x)
    (hl : ∀ x, links l.c (b x) = false) (hr : ∀ x, raw fixed l.c (b x) = Chain.act fixed l.c (b x)) : Good fixed strict main l a := by
  cases ho : l.s.owns i with
  | none => exact good_none (by rw [e1, ho]; rfl) e2 h
  | some x => exact good_some (by rw [e1, ho]; rfl) e2 (hr x) (h.work fixed ho (b x) (hw x) (ht x) (hl x))

theorem good_publish {fixed strict : Bool} (h : LOk main l) (i pos off : Nat) : Good fixed strict main l (.publish i pos off) := by
  cases ho : l.s.owns i with
  | none => exact good_none (s' := l.s) (by simp only [onLeaves, ho]) rfl h
  | some x =>
    obtain ⟨⟨o, r, n, hp⟩, hi⟩ := owns_some ho
    have q := h.ins i o r n hp
    rw [hi] at q
    have hk := h.key i o (by rw [hp]; rfl)
    rw [hk] at q
    by_cases hc : isLocked (l.c.hold x) = true ∧ pos ≤ size 5 (l.c.leaf x).b.perm ∧ off < 24 - size 5 (l.c.leaf x).b.perm ∧
        ready (l.c.leaf x) (l.s.key i).ikey pos (Cas.Try.slot ⟨⟨0, 0⟩, 0#32, (l.c.leaf x).b.perm, pos, off⟩) = true
    · refine good_some (b := .publish x pos off) (s' := l.s) (by simp only [onLeaves, ho, if_pos hc]) rfl ?_
        (h.work fixed ho _ rfl rfl rfl)
      obtain ⟨lv, e⟩ := isLocked_iff hc.1
      have hr := hc.2.2.2
      have fit : Chain.fits (l.c.leaf x) (l.c.leaf (l.c.leaf x).nx).lo pos (Cas.Try.slot ⟨⟨0, 0⟩, 0#32, (l.c.leaf x).b.perm, pos, off⟩) = true := by
        simp only [ready, decide_eq_true_eq] at hr
        obtain ⟨r1, r2, r3, r4, r5, r6⟩ := hr
        simp only [Chain.fits, decide_eq_true_eq]
        rw [r4]
        exact ⟨r1, r2, r3, q.2.1, q.2.2.2, r5, r6⟩
      simp only [raw, Chain.act, e]
      rw [if_pos ⟨hc.2.1, hc.2.2.1, fit⟩]
    · exact good_none (s' := l.s) (by simp only [onLeaves, ho, if_neg hc]) rfl h

theorem good_finish {fixed strict : Bool} (h : LOk main l) (i : Nat) : Good fixed strict main l (.finish i) := by
  cases ho : l.s.owns i with
  | none =>
    refine good_none (s' := l.s) (by simp only [onLeaves, ho]) ?_ h
    simp only [beside]
    split
    · rename_i e1 e2; rw [owns_pc e1 e2] at ho; cases ho
    · rfl
  | some x =>
    obtain ⟨⟨o, r, n, hp⟩, hi⟩ := owns_some ho
    by_cases hc : isLocked (l.c.hold x) = true
    · refine good_some (b := .giveUp x) (s' := l.s.goto i (.done o none)) (by simp only [onLeaves, ho, if_pos hc]) (by simp only [beside, hp, hi, if_pos hc]) rfl ?_
      exact h.drop fixed hp (by rw [hi]; rfl) hc rfl trivial trivial rfl (by nofun)
    · exact good_none (s' := l.s) (by simp only [onLeaves, ho, if_neg hc]) (by simp only [beside, hp, hi, if_neg hc]) h

theorem good_hold {fixed strict : Bool} (h : LOk main l) (i : Nat) : Good fixed strict main l (.hold i) := by
  cases ho : l.s.owns i with
  | none => exact good_none (s' := l.s) (by simp only [onLeaves, ho, Option.map_none]) (by simp only [beside, ho]) h
  | some x =>
    obtain ⟨⟨o, r, n, hp⟩, hi⟩ := owns_some ho
    by_cases hl : links l.c (.hold x) = false
    · refine good_some (b := .hold x) (s' := l.s) (by simp only [onLeaves, ho, Option.map_some]) ?_ rfl (h.work fixed ho _ rfl rfl hl)
      simp only [beside, ho]
      split
      · rename_i e; simp [links, e] at hl
      · rfl
    · cases e : l.c.hold x with
      | publish lv y =>
        exact good_some (b := .hold x) (by simp only [onLeaves, ho, Option.map_some]) (by simp only [beside, ho, e]) rfl (h.link fixed hp hi e)
      | _ => simp [links, e] at hl

theorem good_unlock {fixed strict : Bool} (h : LOk main l) (x : Nat) : Good fixed strict main l (.unlock x) := by
  cases e : l.c.hold x with
  | unlock lv =>
    by_cases hk : (l.s.ix.heap.node (l.s.num x)).locked = false
    · refine good_some (b := .hold x) (s' := l.s) (by simp only [onLeaves, e, if_pos hk]) rfl rfl ?_
      refine h.loose fixed (.hold x) (by simp only [links, e]) (h.nobody (by rw [show target (Chain.Act.hold x : Chain.Act V) = x from rfl, e]; rfl)) ?_
      intro _ g
      have g : (l.s.ix.heap.node (l.s.num x)).locked = true := g
      rw [hk] at g; cases g
    · exact good_none (s' := l.s) (by simp only [onLeaves, e, if_neg hk]) rfl h
  | _ => exact good_none (s' := l.s) (by simp only [onLeaves, e]) rfl h

theorem good_release {fixed strict : Bool} (h : LOk main l) (y : Nat) : Good fixed strict main l (.release y) := by
  by_cases hk : (l.s.ix.heap.node (l.s.num y)).locked = false
  · refine good_some (b := .release y) (s' := l.s) (by simp only [onLeaves, if_pos hk]) rfl rfl ?_
    by_cases e : l.c.hold y = .newborn
    · refine h.loose fixed (.release y) rfl (h.nobody (by rw [show target (Chain.Act.release y : Chain.Act V) = y from rfl, e]; rfl)) ?_
      intro _ g
      have g : (l.s.ix.heap.node (l.s.num y)).locked = true := g
      rw [hk] at g; cases g
    · have : Chain.act fixed l.c (.release y) = l.c := by
        simp only [Chain.act, e]
      rw [this]; exact h
  · exact good_none (s' := l.s) (by simp only [onLeaves, if_neg hk]) rfl h

/-- One step in a layer. -/
theorem lact_ok {fixed strict : Bool} (h : LOk main l) (a : LAct V) (hc : ∀ i, a = .walk i → Calm strict l.s.ix i)
    (hf : ∀ i, ¬ Failed (lact fixed strict main l a).s.ix i) : Good fixed strict main l a := by
  cases a with
  | call i k put =>
    refine good_none rfl rfl ?_
    simp only [beside]
    split
    · rename_i e; exact h.call k put (.inl e)
    · rename_i e; exact h.call k put (.inr ⟨_, _, e⟩)
    · exact h
  | walk i =>
    have hf : ¬ Failed (beside strict main l (.walk i)).ix i := hf i
    refine good_none rfl rfl ?_
    simp only [beside] at hf ⊢
    split
    · rename_i e
      rw [if_pos e] at hf
      exact h.walk e (hc i rfl) hf
    · exact h
  | enter i => exact good_enter h i
  | read i =>
    refine good_some (b := .read i) (s' := l.s) rfl rfl rfl (h.loose fixed _ rfl h.nobody0 (fun g => ?_))
    have : l.c.live 0 = true := g
    rw [h.C.zero] at this; cases this
  | step i => exact good_step h i
  | write i t ik kl c sf => exact good_work h (fun x => .write x t ik kl c sf) rfl rfl (fun _ => rfl) (fun _ => rfl) (fun _ => rfl) (fun _ => rfl)
  | publish i pos off => exact good_publish h i pos off
  | update i t v => exact good_work h (fun x => .update x t v) rfl rfl (fun _ => rfl) (fun _ => rfl) (fun _ => rfl) (fun _ => rfl)
  | finish i => exact good_finish h i
  | split i => exact good_work h (fun x => .markSplit x) rfl rfl (fun _ => rfl) (fun _ => rfl) (fun _ => rfl) (fun _ => rfl)
  | freeze i sp y => exact good_work h (fun x => .freeze x sp y) rfl rfl (fun _ => rfl) (fun _ => rfl) (fun _ => rfl) (fun _ => rfl)
  | hold i => exact good_hold h i
  | unlock x => exact good_unlock h x
  | release y => exact good_release h y

/-- The beginning of a conversion. -/
theorem LOk.convert (h : LOk main l) (fixed : Bool) {i x : Nat} (ho : l.s.owns i = some x) (t q : Nat) :
    LOk main ⟨Chain.act fixed l.c (.convert x t q), l.s⟩ := h.work fixed ho _ rfl rfl rfl

/-- A new layer. -/
theorem LOk.init {c : Chain.St V} (main : Bool) (hc : Chain.Start c) : LOk main ⟨c, Side.init⟩ := by
  have A : ∀ n, Al Side.init.ix.heap n ↔ n = 1 := by
    intro n; simp only [Al, Side.init, Index.init]; omega
  have L : ∀ x, c.live x = true ↔ x = 1 := hc.live
  refine ⟨Index.init_full main, hc.inv, ?_, ?_, ?_, ?_, ?_, ?_, ?_⟩
  · intro i o e; cases e
  · intro n hn _
    rw [(A n).1 hn]
    exact ⟨(L 1).2 rfl, hc.low, rfl⟩
  · intro x hx
    rw [(L x).1 hx]
    exact ⟨(A 1).2 rfl, rfl, rfl⟩
  · intro x hx
    rw [(L x).1 hx]
    show 0 = if (c.leaf 1).nx = 0 then 0 else _
    rw [if_pos hc.next]
  · intro x _ e; cases e
  · intro i o r n e; cases e
  · rintro i j x ⟨o, r, n, e⟩; cases e
end
end Verif.Whole
