import Verif.Proof.OpsHist
import Verif.Proof.OpsLive
import Verif.Proof.IndexHeight
set_option linter.unusedSimpArgs false
set_option linter.unusedVariables false
/-! The rounds of a propagation in whole calls, and the height of the index of a layer. -/
namespace Verif.Ops
open Verif.Internode (upd upd_same upd_ne)
open Verif.Index (holds Al Half RoundsOk Grows)
open Verif.Whole (LAct Lay LOk onLeaves lact isLocked beside inIndex link splitAt)
variable {V : Type} {fixed strict main : Bool}

section
variable {l : Lay V}

theorem split_grows (h : Index.Heap Unit) (x sep : Nat) : Grows h (splitAt h x sep) := by
  refine ⟨Nat.le_succ _, fun n hn => ?_⟩
  simp only [splitAt]
  rw [upd_ne _ _ _ (show n ≠ h.fresh by have := hn.2; omega)]
  by_cases e : n = x
  · subst e; rw [upd_same]
  · rw [upd_ne _ _ _ e]

theorem split_half {h : Index.Heap Unit} {x sep : Nat} (hx : (h.node x).ht = 0) (H : Half h) : Half (splitAt h x sep) := by
  refine H.congr rfl fun n hn h0 => ?_
  simp only [splitAt] at h0 ⊢
  by_cases e : n = h.fresh
  · subst e; rw [upd_same] at h0; cases h0
  · rw [upd_ne _ _ _ e] at h0 ⊢
    by_cases e' : n = x
    · subst e'; rw [upd_same, hx] at h0; cases h0
    · rw [upd_ne _ _ _ e']
      have h2 : n < h.fresh + 1 := hn.2
      exact ⟨⟨hn.1, by omega⟩, rfl, .inl rfl, id⟩

theorem _root_.Verif.Index.RoundsOk.other' {h : Index.Heap Unit} {pc : Index.Pc Unit} {k e : Nat} (g : RoundsOk h k pc) : RoundsOk h (k + e) pc := by
  cases pc with
  | par c => exact Nat.le_trans g (by omega)
  | lck c p => exact Nat.le_trans g (by split <;> omega)
  | rechk c p => exact Nat.le_trans g (by split <;> omega)
  | ins => trivial
  | _ => exact g.elim

/-- What a step does to the index of a layer. -/
inductive Turn (strict main : Bool) (l : Lay V) : LAct V → Prop
  /-- a thread goes elsewhere and holds nothing, before and after, or stays -/
  | go {a : LAct V} (h1 : (beside strict main l a).ix.heap = l.s.ix.heap)
      (h2 : ∀ i, (beside strict main l a).ix.pc i = l.s.ix.pc i ∨
        holds ((beside strict main l a).ix.pc i) = [] ∧ ∀ o e, (beside strict main l a).ix.pc i ≠ .fail o e) : Turn strict main l a
  /-- a step in the index -/
  | walk {i : Nat} (h1 : (beside strict main l (.walk i)).ix = Index.act strict main l.s.ix (.run i)) (h2 : inIndex (l.s.ix.pc i) = true) :
      Turn strict main l (.walk i)
  /-- a new leaf has been linked -/
  | link {i x sep : Nat} {o : Index.Op Unit} {r n : Nat} {c : Index.Ctx Unit} (h0 : l.c.live x = true) (h1 : l.s.ix.pc i = .sect o r n)
      (h2 : (beside strict main l (.hold i)).ix = ⟨splitAt l.s.ix.heap (l.s.num x) sep, upd l.s.ix.pc i (.par c)⟩) (h3 : c.rounds = 0) :
      Turn strict main l (.hold i)

theorem turn (h : LOk main l) (a : LAct V) : Turn strict main l a := by
  have same : ∀ {a : LAct V}, beside strict main l a = l.s → Turn strict main l a := fun e => .go (by rw [e]) fun i => .inl (by rw [e])
  have goto : ∀ {a : LAct V} {j : Nat} {p : Index.Pc Unit} {s : Whole.Side}, s.ix = (l.s.goto j p).ix → beside strict main l a = s → holds p = [] → (∀ o e, p ≠ .fail o e) →
      Turn strict main l a := by
    intro a j p s es e hp hf
    refine .go (by rw [e, es]; rfl) fun i => ?_
    rw [e, es]
    simp only [Whole.Side.goto]
    by_cases g : i = j
    · subst g; rw [upd_same]; exact .inr ⟨hp, hf⟩
    · rw [upd_ne _ _ _ g]; exact .inl rfl
  cases a with
  | call i k put =>
    cases e : l.s.ix.pc i with
    | idle =>
      exact goto (j := i) (p := .climb (if put then .insert k.ikey () else .get k.ikey) l.s.ix.heap.root) (s := { l.s with key := upd l.s.key i k, ix := { l.s.ix with pc := upd l.s.ix.pc i (.climb (if put then .insert k.ikey () else .get k.ikey) l.s.ix.heap.root) } }) rfl (by simp only [beside, e, Index.act]) rfl (by intro _ _ g; cases g)
    | done o x =>
      exact goto (j := i) (p := .climb (if put then .insert k.ikey () else .get k.ikey) l.s.ix.heap.root) (s := { l.s with key := upd l.s.key i k, ix := { l.s.ix with pc := upd l.s.ix.pc i (.climb (if put then .insert k.ikey () else .get k.ikey) l.s.ix.heap.root) } }) rfl (by simp only [beside, e, Index.act]) rfl (by intro _ _ g; cases g)
    | _ => exact same (by simp only [beside, e])
  | walk i =>
    by_cases g : inIndex (l.s.ix.pc i) = true
    · exact .walk (by simp only [beside, if_pos g]) g
    · exact same (by simp only [beside, if_neg g])
  | enter i =>
    cases e : l.s.ix.pc i with
    | look o n =>
      cases e2 : l.c.rd i with
      | idle => exact goto rfl (by simp only [beside, e, e2]; rfl) rfl (by intro _ _ g; cases g)
      | done _ _ _ => exact goto rfl (by simp only [beside, e, e2]; rfl) rfl (by intro _ _ g; cases g)
      | _ => exact same (by simp only [beside, e, e2])
    | adv o r h n => exact goto (s := (l.s.goto i (.sect o r n)).move i (.adv h (l.s.leaf n))) rfl (by simp only [beside, e]) rfl (by intro _ _ g; cases g)
    | _ => exact same (by simp only [beside, e])
  | step i =>
    have move : ∀ p, beside strict main l (.step i) = l.s.move i p → Turn strict main l (.step i) := fun p g =>
      .go (by rw [g]; rfl) fun k => .inl (by rw [g]; rfl)
    cases e : l.s.ix.pc i with
    | sect o r n =>
      cases e2 : l.s.ins i with
      | adv h x =>
        by_cases h0 : h = 0
        · exact goto rfl (by simp only [beside, e, e2, if_pos h0]; rfl) rfl (by intro _ _ g; cases g)
        · by_cases h1 : (l.c.leaf x).mark = true
          · exact same (by simp only [beside, e, e2, if_neg h0, if_pos h1])
          · by_cases h2 : (l.c.leaf x).nx = 0
            · exact move _ (by simp only [beside, e, e2, if_neg h0, if_neg h1, if_pos h2]; rfl)
            · exact move _ (by simp only [beside, e, e2, if_neg h0, if_neg h1, if_neg h2]; rfl)
      | bound h x z =>
        by_cases h0 : (l.c.leaf z).lo ≤ o.key
        · exact move _ (by simp only [beside, e, e2, if_pos h0]; rfl)
        · exact move _ (by simp only [beside, e, e2, if_neg h0]; rfl)
      | lock x =>
        by_cases h0 : NV.lockable (l.c.leaf x).word = true
        · exact move _ (by simp only [beside, e, e2, if_pos h0]; rfl)
        · exact same (by simp only [beside, e, e2, if_neg h0])
      | check x =>
        by_cases h0 : Whole.moved l.c x o.key = true
        · exact goto rfl (by simp only [beside, e, e2, if_pos h0]; rfl) rfl (by intro _ _ g; cases g)
        · exact move _ (by simp only [beside, e, e2, if_neg h0]; rfl)
      | own x => exact same (by simp only [beside, e, e2])
    | _ => exact same (by simp only [beside, e])
  | finish i =>
    cases e : l.s.ix.pc i with
    | sect o r n =>
      cases e2 : l.s.ins i with
      | own x =>
        by_cases h0 : isLocked (l.c.hold x) = true
        · exact goto rfl (by simp only [beside, e, e2, if_pos h0]; rfl) rfl (by intro _ _ g; cases g)
        · exact same (by simp only [beside, e, e2, if_neg h0])
      | _ => exact same (by simp only [beside, e, e2])
    | _ => exact same (by simp only [beside, e])
  | hold i =>
    cases ho : l.s.owns i with
    | none => exact same (by simp only [beside, ho])
    | some x =>
      have := ho
      unfold Whole.Side.owns at this
      split at this
      · rename_i o r n x' hp hx
        cases this
        have hl := (h.ins i o r n hp)
        rw [hx] at hl
        cases eh : l.c.hold x with
        | publish lv y =>
          refine .link (x := x) (sep := (l.c.leaf y).lo) hl.1 hp (by simp only [beside, ho, eh, link, hp]; rfl) rfl
        | _ => exact same (by simp only [beside, ho, eh])
      · cases this
  | _ => exact same rfl

theorem Turn.half {a : LAct V} (t : Turn strict main l a) (h : LOk main l) (H : Half l.s.ix.heap)
    (hf : ∀ i o e, (beside strict main l a).ix.pc i ≠ .fail o e) : Half (beside strict main l a).ix.heap := by
  cases t with
  | go h1 h2 => rw [h1]; exact H
  | walk h1 h2 =>
    rename_i i
    rw [h1] at hf ⊢
    refine Index.step_half (h.F.I.pre i) H fun o e g => hf i o e ?_
    simp only [Index.act, upd_same]; exact g
  | link h0 h1 h2 h3 =>
    rw [h2]
    exact split_half (h.up _ h0).2.1 H

/-- The rounds of thread `i`. -/
def Rounds (s : Whole.Side) (i k : Nat) : Prop := holds (s.ix.pc i) ≠ [] → RoundsOk s.ix.heap k (s.ix.pc i)

theorem Turn.rounds {a : LAct V} (t : Turn strict main l a) (h : LOk main l) {i k e : Nat} (H : Rounds l.s i k)
    (hf : ∀ i o e, (beside strict main l a).ix.pc i ≠ .fail o e)
    (he : l.s.ix.heap.fresh < (beside strict main l a).ix.heap.fresh → a.who ≠ some i → e = 1) :
    Rounds (beside strict main l a) i (k + e) := by
  have I := h.F.I
  have mono : ∀ {hp : Index.Heap Unit} {pc : Index.Pc Unit}, RoundsOk hp k pc → RoundsOk hp (k + e) pc := fun g =>
    RoundsOk.other' g
  intro hh
  cases t with
  | go h1 h2 =>
    rcases h2 i with g | ⟨g, _⟩
    · rw [g] at hh ⊢
      rw [h1]
      exact mono (H hh)
    · exact absurd g hh
  | walk h1 h2 =>
    rename_i j
    rw [h1] at hh hf he ⊢
    have P := Index.step_post (strict := strict) (I.pre j)
    by_cases hj : i = j
    · subst hj
      simp only [Index.act, upd_same] at hh ⊢
      rcases P with ⟨x, _, _, g⟩ | P
      · exact absurd g (by have := hf i x.o .rounds; simp only [Index.act, upd_same] at this; exact this)
      · refine mono ?_
        by_cases h0 : holds (l.s.ix.pc i) = []
        · obtain ⟨⟨o, r, q, g⟩, _⟩ := Index.sect_par h0 hh
          rw [g] at h2; cases h2
        · exact RoundsOk.own (I.pre i) (H h0) hh ⟨P.L.fresh, P.L.ht⟩
    · simp only [Index.act, upd_ne _ _ _ hj] at hh ⊢
      have P : Grows l.s.ix.heap (Index.step strict main l.s.ix.heap (l.s.ix.pc j)).1 := by
        rcases P with ⟨x, e1, e2, g⟩ | P
        · exact absurd g (by have := hf j x.o .rounds; simp only [Index.act, upd_same] at this; exact this)
        · exact ⟨P.L.fresh, P.L.ht⟩
      refine RoundsOk.other P (fun n hn => (I.hold i n hn).1) (fun n hn => ?_) (H hh)
      have hj' : n ∉ holds (l.s.ix.pc j) := fun q => hj (I.excl i j n hn q)
      rcases Index.parent_kept (strict := strict) (main := main)
        (fun o r q e => by have := I.ok j; rw [e] at this; exact this.2.2.2) hj' with q | q
      · exact .inl q
      · exact .inr (he q (fun g => hj (Option.some.inj g).symm))
  | link h0 h1 h2 h3 =>
    rename_i j x sep o r n c
    rw [h2] at hh he ⊢
    by_cases hj : i = j
    · subst hj
      simp only [upd_same]
      show c.rounds ≤ _
      rw [h3]; omega
    · simp only [upd_ne _ _ _ hj] at hh ⊢
      exact RoundsOk.other (split_grows _ _ _) (fun n hn => (I.hold i n hn).1)
        (fun n hn => .inr (he (Nat.lt_succ_self _) (fun g => hj (Option.some.inj g).symm))) (H hh)
end

section
variable {τ : Nat → St V} {β : Nat → Option (Act V)} {N : Nat}

theorem setParents_fresh {W : Type} (h : Index.Heap W) (a : Internode.Arr Nat) (q : Nat) : ∀ n, (Index.setParents h a q n).fresh = h.fresh
  | 0 => rfl
  | n + 1 => by simp only [Index.setParents, Index.Heap.mod]; exact setParents_fresh h a q n

/-- A step in the index adds at most one node. -/
theorem step_fresh {W : Type} {main : Bool} (h : Index.Heap W) (p : Index.Pc W) : h.fresh ≤ (Index.step strict main h p).1.fresh ∧ (Index.step strict main h p).1.fresh ≤ h.fresh + 1 := by
  unfold Index.step
  split <;> (try dsimp only) <;> (repeat' split)
  all_goals first
    | exact ⟨Nat.le_refl _, Nat.le_succ _⟩
    | exact ⟨Nat.le_succ _, Nat.le_refl _⟩
    | (simp only [Index.splitInode, Index.Heap.mod, setParents_fresh]; exact ⟨Nat.le_succ _, Nat.le_refl _⟩)

/-- What a step does to everything but the leaves of a layer. -/
theorem Exec.side_step (E : Exec fixed strict τ β) (n L : Nat) : (τ (n + 1)).w.side L = (τ n).w.side L ∨
    ∃ j y qs a, β n = some (.run j y qs) ∧ (LAct.who a = some j ∨ LAct.who a = none) ∧ (τ n).w.f.up L = true ∧ (next (τ n) j y qs).1 = some (.inLayer L a) ∧
      (τ (n + 1)).w.side L = beside strict (L == 0) ((τ n).w.lay L) a := by
  cases e : β n with
  | none => rw [(none_eq E e).1]; exact .inl rfl
  | some b =>
    cases b with
    | call j o => rw [(call_eq E e).1]; exact .inl rfl
    | run j y qs =>
      obtain ⟨ew, _⟩ := run_eq E e
      cases ea : (next (τ n) j y qs).1 with
      | none => rw [ew, ea]; exact .inl rfl
      | some b =>
        rw [ew, ea]
        show (Whole.act fixed strict (τ n).w b).side L = _ ∨ _
        have hw := next_who ea
        cases b with
        | convert K j' t d v qs' =>
          left
          simp only [Whole.act]
          repeat' split
          all_goals rfl
        | inLayer K a =>
          by_cases hu : (τ n).w.f.up K = true
          · by_cases hk : L = K
            · subst hk
              exact .inr ⟨j, y, qs, a, rfl, hw, hu, ea, post_side_same hu a⟩
            · left
              rw [post_side hu, if_neg hk]
          · left
            simp only [Whole.act, if_neg hu]

/-- A step adds at most one node to a layer. -/
theorem Exec.nodes_le (E : Exec fixed strict τ β) (n L : Nat) : nodes (τ n) L ≤ nodes (τ (n + 1)) L ∧ nodes (τ (n + 1)) L ≤ nodes (τ n) L + 1 := by
  rcases E.side_step n L with g | ⟨j, y, qs, b, e1, e2, hu, e3, g⟩
  · unfold nodes; rw [g]; omega
  · unfold nodes; rw [g]
    cases b with
    | walk i =>
      simp only [beside]
      repeat' split
      all_goals first
        | exact ⟨Nat.le_refl _, Nat.le_succ _⟩
        | exact step_fresh _ _
    | _ =>
      simp only [beside, Index.act, Whole.link]
      repeat' split
      all_goals first
        | exact ⟨Nat.le_refl _, Nat.le_succ _⟩
        | exact ⟨Nat.le_succ _, Nat.le_refl _⟩

/-- Up to the first failure the index of every layer is balanced, and the rounds of an insert are accounted for. -/
theorem Exec.steady (E : Exec fixed strict τ β) (C : Clean strict τ β N) : ∀ n, n ≤ N →
    (∀ L, Half ((τ n).w.side L).ix.heap) ∧ ∀ i L o a, Open τ β i o a n → Rounds ((τ n).w.side L) i (otherNodes τ β i a n)
  | 0, _ => by
    refine ⟨fun L => ?_, fun i L o a h => absurd h.lt (Nat.not_lt_zero a)⟩
    rw [E.start.tree.side L]
    intro n _ h
    simp [Whole.Side.init, Index.init] at h
  | n + 1, hn => by
    obtain ⟨H1, H2⟩ := Exec.steady E C n (by omega)
    have K := E.know C (n := n) (by omega)
    have P := E.phases C n (by omega)
    have nf : ∀ L i o e, ((τ (n + 1)).w.side L).ix.pc i ≠ .fail o e := fun L i o e => C.done (n + 1) hn L i o e
    refine ⟨fun L => ?_, fun i L o a h => ?_⟩
    · rcases E.side_step n L with g | ⟨j, y, qs, b, e1, e2, hu, e3, g⟩
      · rw [g]; exact H1 L
      · have := nf L
        rw [g] at this ⊢
        have ok := K.ok.ok L (K.ok.basic.made L hu)
        exact (turn ok b).half ok (H1 L) this
    · have hlt := h.lt
      by_cases han : a = n
      · subst han
        intro hh
        have eh : ((τ (a + 1)).w.side L) = (τ a).w.side L := by rw [(call_eq E h.call).1]
        rw [eh] at hh
        exact absurd (home_holds (over_home (P i) h.free L)) hh
      · have ho : Open τ β i o a n := ⟨h.call, h.free, by omega, fun k k1 k2 => h.busy k k1 (by omega)⟩
        have R := H2 i L o a ho
        rcases E.side_step n L with g | ⟨j, y, qs, b, e1, e2, hu, e3, g⟩
        · rw [g]
          intro hh
          exact (R hh).other'
        · have f := nf L
          have ok := K.ok.ok L (K.ok.basic.made L hu)
          rw [g] at f ⊢
          refine (turn ok b).rounds ok R f fun k1 k2 => if_pos ⟨by omega, ?_, L, ?_⟩
          · rintro ⟨y', qs', e'⟩
            rw [e1] at e'
            cases e'
            rcases e2 with e2 | e2
            · exact k2 e2
            · cases b with
              | unlock x => exact absurd k1 (Nat.lt_irrefl _)
              | release x => exact absurd k1 (Nat.lt_irrefl _)
              | _ => cases e2
          · unfold nodes; rw [g]; exact k1

/-- The first failure: a thread in a call whose 64 rounds are accounted for. -/
theorem Exec.failure (E : Exec fixed strict τ β) (C : Clean strict τ β N) {L i : Nat} {o : Index.Op Unit} {e : Index.Err}
    (hf : ((τ (N + 1)).w.side L).ix.pc i = .fail o e) : ∃ d v a, Open τ β i (.insert d v) a N ∧
      64 ≤ (((τ N).w.side L).ix.heap.node ((τ N).w.side L).ix.heap.top).ht + otherNodes τ β i a N ∧
      8 ^ ((((τ N).w.side L).ix.heap.node ((τ N).w.side L).ix.heap.top).ht - 1) < nodes (τ N) L := by
  obtain ⟨H1, H2⟩ := E.steady C N (Nat.le_refl N)
  have nf : ∀ o e, ((τ N).w.side L).ix.pc i ≠ .fail o e := fun o e => C.done N (Nat.le_refl N) L i o e
  rcases E.side_step N L with g | ⟨j, y, qs, b, e1, e2, hu, e3, g⟩
  · rw [g] at hf; exact absurd hf (nf o e)
  · have K := E.know C (Nat.le_refl N)
    have ok := K.ok.ok L (K.ok.basic.made L hu)
    have I : Index.Inv (L == 0) ((τ N).w.side L).ix := ok.F.I
    rw [g] at hf
    cases turn (strict := strict) ok b with
    | go h1 h2 =>
      rcases h2 i with k | ⟨_, k⟩
      · rw [k] at hf; exact absurd hf (nf o e)
      · exact absurd hf (k o e)
    | link h0 h1 h2 h3 =>
      rename_i j' _ _ _ _ _ _
      rw [h2] at hf
      by_cases k : i = j'
      · subst k; simp only [upd_same] at hf; cases hf
      · simp only [upd_ne _ _ _ k] at hf; exact absurd hf (nf o e)
    | walk h1 h2 =>
      rename_i j'
      rw [h1] at hf
      by_cases k : i = j'
      · subst k
        simp only [Index.act, upd_same] at hf
        rcases Index.step_post (strict := strict) (ok.F.I.pre i) with ⟨x, k1, k2, _⟩ | Q
        · have k1 : ((τ N).w.side L).ix.pc i = .par x := k1
          have hb : ((τ N).ph i).over = false := by
            cases hb : ((τ N).ph i).over with
            | false => rfl
            | true =>
              have := home_holds (over_home (E.phases C N (Nat.le_refl N) i) hb L)
              rw [k1] at this; cases this
          obtain ⟨a, ha⟩ := E.opened N i hb
          have R := H2 i L _ a ha
          unfold Rounds at R
          rw [k1] at R
          have R : x.rounds ≤ _ := R (by simp [holds])
          have okx := I.ok i
          rw [k1] at okx
          have := I.H.low x.l okx.al
          have k2 : 64 ≤ x.rounds := k2
          cases eo : (τ N).op i with
          | get d =>
            have := (E.locks C N (Nat.le_refl N)).get i d eo L
            rw [k1] at this; exact this.elim
          | insert d v =>
            rw [eo] at ha
            exact ⟨d, v, a, ha, by omega, Index.height_log I.H (H1 L)⟩
        · have := Q.ok
          rw [hf] at this; exact this.elim
      · simp only [Index.act, upd_ne _ _ _ k] at hf; exact absurd hf (nf o e)
end
end Verif.Ops
