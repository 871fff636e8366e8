import Verif.Proof.OpsRoom
import Verif.Proof.IndexLive
set_option linter.unusedSimpArgs false
set_option linter.unusedVariables false
/-! The propagation of a split in whole calls: its locks in the index are those of the two leaves. -/
namespace Verif.Ops
open Verif.Internode (upd upd_same upd_ne)
open Verif.Index (holds)
open Verif.Whole (LAct WOk onLeaves raw lact isLocked beside inIndex Frame Inside)
variable {V : Type} {fixed strict : Bool}

/-- The numbers of leaves in the index stay. -/
theorem num_live {s : Whole.St V} (W : WOk s) (a : Whole.Act V) {L x : Nat} (hm : s.f.made L = true) (hx : (s.f.layer L).live x = true) :
    ((Whole.act fixed strict s a).side L).num x = (s.side L).num x := by
  cases a with
  | convert K i t d v qs =>
    simp only [Whole.act]
    repeat' split
    all_goals rfl
  | inLayer K a =>
    simp only [Whole.act]
    split
    · show (upd s.side K _ L).num x = _
      by_cases e : L = K
      · subst e
        rw [upd_same]
        show (beside strict (L == 0) (s.lay L) a).num x = _
        cases a with
        | hold i =>
          simp only [beside]
          split
          · split
            · rename_i x' _ _ lv y eh
              have N := (W.ok L hm).C.new x' y (by rw [eh]; rfl)
              have hy : x ≠ y := by rintro rfl; rw [show (s.lay L).c.live x = _ from hx] at N; exact absurd N.2.2.1 (by simp)
              unfold Whole.link
              split
              · show upd _ y _ x = _
                rw [upd_ne _ _ _ hy]; rfl
              · rfl
            · rfl
          · rfl
        | _ =>
          simp only [beside]
          repeat' split
          all_goals rfl
      · rw [upd_ne _ _ _ e]
    · rfl

/-- No step of the internodes leads to the next pointers of leaves. -/
theorem step_nxt {main : Bool} {h : Index.Heap Unit} {p : Index.Pc Unit} (hi : inIndex p = true) (o : Index.Op Unit) (l : Nat) :
    (Index.step strict main h p).2 ≠ .nxt o l := by
  cases p <;> first | (cases hi; done) | skip
  case ins c p todo => cases todo <;> simp only [Index.step] <;> nofun
  all_goals simp only [Index.step]
  all_goals repeat' split
  all_goals nofun

/-- Nobody is at the next pointer of a leaf: lookups leave the index for that. -/
def NoNxt (s : Whole.St V) : Prop := ∀ L i o l, (s.side L).ix.pc i ≠ .nxt o l

theorem NoNxt.act {s : Whole.St V} (h : NoNxt s) (a : Whole.Act V) : NoNxt (Whole.act fixed strict s a) := by
  intro L i o l
  have h0 := h L i o l
  cases a with
  | convert K j t d v qs =>
    simp only [Whole.act]
    repeat' split
    all_goals exact h0
  | inLayer K a =>
    simp only [Whole.act]
    split
    · show (upd s.side K _ L).ix.pc i ≠ _
      by_cases e : L = K
      · subst e
        rw [upd_same]
        show (beside strict (L == 0) (s.lay L) a).ix.pc i ≠ _
        have go : ∀ j p, p ≠ .nxt o l → upd (s.side L).ix.pc j p i ≠ .nxt o l := by
          intro j p hp
          by_cases ej : i = j
          · subst ej; rw [upd_same]; exact hp
          · rw [upd_ne _ _ _ ej]; exact h0
        cases a with
        | walk j =>
          simp only [beside]
          split
          · rename_i hi
            show (Index.act strict (L == 0) (s.side L).ix (.run j)).pc i ≠ _
            simp only [Index.act]
            exact go j _ (step_nxt hi o l)
          · exact h0
        | call j k put =>
          simp only [beside]
          split
          · show (Index.act strict (L == 0) (s.side L).ix (.call j _)).pc i ≠ _
            simp only [Index.act]
            split <;> first | exact h0 | exact go j _ (by nofun)
          · show (Index.act strict (L == 0) (s.side L).ix (.call j _)).pc i ≠ _
            simp only [Index.act]
            split <;> first | exact h0 | exact go j _ (by nofun)
          · exact h0
        | hold j =>
          simp only [beside]
          split
          · split
            · unfold Whole.link
              split
              · exact go j _ (by nofun)
              · exact h0
            · exact h0
          · exact h0
        | _ =>
          simp only [beside]
          repeat' split
          all_goals first | exact h0 | exact go _ _ (by nofun)
      · rw [upd_ne _ _ _ e]; exact h0
    · exact h0

/-- In the propagation of a split. -/
def turning : Index.Pc Unit → Bool
  | .par _ | .lck _ _ | .rechk _ _ | .ins _ _ _ | .climb _ _ => true
  | _ => false

theorem turning_step {main : Bool} {h : Index.Heap Unit} {p : Index.Pc Unit} (hp : turning p = true) (hc : ∀ o r, p ≠ .climb o r)
    (hf : ∀ o e, (Index.step strict main h p).2 ≠ .fail o e) : turning (Index.step strict main h p).2 = true := by
  cases p <;> first | (cases hp; done) | skip
  case climb o r => exact absurd rfl (hc o r)
  case ins c p todo => cases todo <;> rfl
  all_goals simp only [Index.step] at hf ⊢
  all_goals repeat' split
  all_goals first | rfl | skip
  all_goals simp_all

/-- What is known of the index during the propagation of a split. -/
def Spread (s : Whole.St V) (i : Nat) : Ph V → Prop
  | .prop L _ x y n => turning ((s.side L).ix.pc i) = true ∧
      (n < 1 → ((s.side L).ix.heap.node ((s.side L).num y)).locked = true → (s.side L).num y ∈ holds ((s.side L).ix.pc i)) ∧
      (n < 2 → ((s.side L).ix.heap.node ((s.side L).num x)).locked = true → (s.side L).num x ∈ holds ((s.side L).ix.pc i))
  | _ => True

theorem act_side {s : Whole.St V} {L : Nat} (hu : s.f.up L = true) (a : LAct V) :
    (Whole.act fixed strict s (.inLayer L a)).side L = beside strict (L == 0) (s.lay L) a := by
  simp only [Whole.act, if_pos hu]; exact upd_same _ _ _

/-- The thread's own steps. -/
theorem Spread.own {s : St V} {d : Spec.Bytes} {v : V} {i y : Nat} {qs : List Nat} (K : Know s.w) (ho : s.op i = .insert d v)
    (K' : Know (after fixed strict s.w (next s i y qs).1)) (P : PutOk s.w d v i (s.ph i)) (hl : LockOk s.w i (s.ph i))
    (H : Spread s.w i (s.ph i)) :
    Spread (after fixed strict s.w (next s i y qs).1) i (next s i y qs).2 := by
  unfold next at K' ⊢
  rw [ho] at K' ⊢
  simp only at K' ⊢
  cases hp : s.ph i with
  | part L m x z =>
    rw [hp] at P
    obtain ⟨P, hn⟩ := P
    simp only
    cases eh : (s.w.f.layer L).hold x with
    | publish lv z' =>
      rw [eh] at hn
      have ez : z' = z := Option.some.inj hn
      subst ez
      obtain ⟨o, r, n, g1, g2⟩ := owns_upd_climb P.owns
      have eb : beside strict (L == 0) (s.w.lay L) (.hold i) = Whole.link (L == 0) (s.w.side L) i x z' ((s.w.f.layer L).leaf z').lo := by
        simp only [beside]
        rw [show (s.w.lay L).s.owns i = _ from P.owns]
        simp only
        rw [show (s.w.lay L).c.hold x = _ from eh]
        rfl
      have N := (K.ok.ok L (K.ok.basic.made L P.place.up)).C.new x z' (by rw [show (s.w.lay L).c.hold x = _ from eh]; rfl)
      have hxz : x ≠ z' := by rintro rfl; exact absurd N.1 (by rw [N.2.2.1]; simp)
      simp only [Spread, after]
      rw [act_side P.place.up, eb]
      unfold Whole.link
      rw [g1]
      simp only [upd_same, upd_ne _ _ _ hxz, holds]
      exact ⟨rfl, fun _ _ => by simp, fun _ _ => by simp⟩
    | _ => trivial
  | prop L m x z n =>
    rw [hp] at P H hl
    obtain ⟨P, hn⟩ := P
    obtain ⟨_, _, l3, l4⟩ := hl
    have hu := P.place.up
    have hm := K.ok.basic.made L hu
    obtain ⟨h1, h2, h3⟩ := H
    simp only [hp] at K' ⊢
    unfold spread at K' ⊢
    simp only at K' ⊢
    split
    · refine ⟨?_, fun g => by omega, fun _ => ?_⟩ <;> simp only [after] <;> rw [act_side hu]
      · exact h1
      · exact h3 (by omega)
    · split
      · refine ⟨?_, fun g => by omega, fun g => by omega⟩; simp only [after]; rw [act_side hu]
        exact h1
      · rename_i g1 g2
        rw [if_neg g1, if_neg g2] at K'
        split
        · split
          · trivial
          · exact ⟨h1, h2, h3⟩
        · trivial
        · rename_i g3 g4
          simp only [after] at K' ⊢
          have hi : inIndex ((s.w.side L).ix.pc i) = true := by
            revert h1; cases (s.w.side L).ix.pc i <;> simp [turning, inIndex]
          have eb : beside strict (L == 0) (s.w.lay L) (.walk i) = { s.w.side L with ix := Index.act strict (L == 0) (s.w.side L).ix (.run i) } := by
            simp only [beside]; exact if_pos hi
          have I := (K.ok.ok L hm).F.I
          have I' := (K'.ok.ok L (K'.ok.basic.made L (post_up hu _ hu))).F.I
          have fine := K'.fine L i
          have e' : (Whole.act fixed strict s.w (.inLayer L (.walk i))).side L = _ := (act_side hu _).trans eb
          have I' : Index.Inv (L == 0) ((Whole.act fixed strict s.w (.inLayer L (.walk i))).side L).ix := I'
          have I : Index.Inv (L == 0) (s.w.side L).ix := I
          rw [e'] at I' fine
          have keep : ∀ m, (((s.w.side L).ix.heap.node m).locked = true → m ∈ holds ((s.w.side L).ix.pc i)) → Index.Al (Index.act strict (L == 0) (s.w.side L).ix (.run i)).heap m →
              ((Index.act strict (L == 0) (s.w.side L).ix (.run i)).heap.node m).locked = true → m ∈ holds ((Index.act strict (L == 0) (s.w.side L).ix (.run i)).pc i) := by
            intro m hb ha hl
            obtain ⟨j, hj⟩ := I'.held m ha hl
            by_cases ej : j = i
            · subst ej; exact hj
            · have hj' : m ∈ holds ((s.w.side L).ix.pc j) := by
                have : (Index.act strict (L == 0) (s.w.side L).ix (.run i)).pc j = (s.w.side L).ix.pc j := by
                  simp only [Index.act]; exact upd_ne _ _ _ ej
                rw [← this]; exact hj
              exact absurd (I.excl _ _ _ hj' (hb (I.hold _ _ hj').2)) ej
          obtain ⟨s1, s2⟩ := lact_still (s.w.lay L) fixed strict (L == 0) (a := .walk i) rfl
          have alive : ∀ x, (s.w.f.layer L).live x = true → Index.Al (Index.act strict (L == 0) (s.w.side L).ix (.run i)).heap ((s.w.side L).num x) := by
            intro x hx
            have := ((K'.ok.ok L (K'.ok.basic.made L (post_up hu _ hu))).up x (by
              show ((Whole.act fixed strict s.w (.inLayer L (.walk i))).f.layer L).live x = true
              rw [post_layer_same hu, s2]; exact hx)).1
            have this : Index.Al ((Whole.act fixed strict s.w (.inLayer L (.walk i))).side L).ix.heap (((Whole.act fixed strict s.w (.inLayer L (.walk i))).side L).num x) := this
            rw [e'] at this
            exact this
          simp only [Spread]
          rw [e']
          have tp : (Index.act strict (L == 0) (s.w.side L).ix (.run i)).pc i = (Index.step strict (L == 0) (s.w.side L).ix.heap ((s.w.side L).ix.pc i)).2 := by
            simp only [Index.act]; exact upd_same _ _ _
          refine ⟨?_, fun g => keep _ (h2 g) (alive z (l4 g).2), fun g => keep _ (h3 g) (alive x ?_)⟩
          · show turning ((Index.act strict (L == 0) (s.w.side L).ix (.run i)).pc i) = true
            rw [tp]
            refine turning_step h1 (fun o r g => g3 o r g) (fun o e => ?_)
            rw [← tp]; exact fine o e
          · obtain ⟨lv, e⟩ := unlocking_iff (l3 g)
            exact (K.ok.ok L hm).C.own x (by rw [show (s.w.lay L).c.hold x = _ from e]; nofun) (by rw [show (s.w.lay L).c.hold x = _ from e]; nofun)
  | store L m x t pos off n => dsimp only; split <;> trivial
  | conv L m x => dsimp only; split <;> first | trivial | (split <;> trivial)
  | freeze L m x sp => dsimp only; split <;> trivial
  | down L m =>
    dsimp only
    unfold down
    repeat' split
    all_goals first | trivial | skip
    · unfold decide splitOr
      dsimp only
      repeat' split
      all_goals trivial
    · unfold checked
      repeat' split
      all_goals trivial
  | read L m =>
    dsimp only
    split
    · unfold answer; split <;> trivial
    · trivial
  | drop L x a => dsimp only; unfold After.ph; split <;> trivial
  | _ => trivial

section
variable {τ : Nat → St V} {β : Nat → Option (Act V)} {N : Nat}

/-- What a step of a thread does to the locks. -/
theorem Exec.shift (E : Exec fixed strict τ β) (C : Clean strict τ β N) {n i y : Nat} {qs : List Nat} (hn : n < N)
    (e : β n = some (.run i y qs)) : Moves (τ n).w (τ (n + 1)).w i ((τ n).ph i) (next (τ n) i y qs).2 := by
  have K := E.know C (n := n) (by omega)
  have W' := (E.know C (n := n + 1) (by omega)).ok
  have p := E.phases C n (by omega) i
  have H := E.locks C n (by omega)
  rw [(run_eq E e).1] at W' ⊢
  cases eo : (τ n).op i with
  | get d => rw [eo] at p; exact (get_moves K.ok W' eo p H).1
  | insert d v => rw [eo] at p; exact put_moves K W' eo p H

theorem Exec.others (E : Exec fixed strict τ β) (C : Clean strict τ β N) {n i y : Nat} {qs : List Nat} (hn : n < N)
    (e : β n = some (.run i y qs)) {k : Nat} (hk : k ≠ i) : Frame (τ n).w (τ (n + 1)).w k := by
  obtain ⟨ew, h2, h3, _, hm⟩ := run_eq E e
  cases ea : (next (τ n) i y qs).1 with
  | none => rw [ew, ea]; exact Frame.refl _ _
  | some a =>
    rw [ea] at hm
    refine E.frame C (by omega) hm ?_
    rcases next_who ea with g | g <;> rw [g] <;> simp
    exact fun g => hk g.symm

/-- Nobody is at the next pointer of a leaf. -/
theorem Exec.noNxt (E : Exec fixed strict τ β) : ∀ n, NoNxt (τ n).w
  | 0 => by intro L i o l; rw [E.start.tree.side L]; nofun
  | n + 1 => by
    have H := Exec.noNxt E n
    cases e : β n with
    | none => rw [(none_eq E e).1]; exact H
    | some b =>
      cases b with
      | call i o => rw [(call_eq E e).1]; exact H
      | run i y qs =>
        rw [(run_eq E e).1]
        cases (next (τ n) i y qs).1 with
        | none => exact H
        | some a => exact H.act a

theorem get_no_prop {s : Whole.St V} {i : Nat} {p : Ph V} (h : GetOk s i p) : Spread s i p := by
  cases p <;> trivial

/-- In every execution of calls the propagation of a split holds the locks that its two leaves still have in the index. -/
theorem Exec.spread (E : Exec fixed strict τ β) (C : Clean strict τ β N) : ∀ n, n ≤ N → ∀ i, Spread (τ n).w i ((τ n).ph i)
  | 0, _, i => by rw [E.start.idle i]; trivial
  | n + 1, hn, i => by
    have H := Exec.spread E C n (by omega) i
    have K := E.know C (n := n) (by omega)
    have K' := E.know C hn
    have P := E.phases C n (by omega) i
    have P' := E.phases C (n + 1) hn i
    have L := E.locks C n (by omega)
    have L' := E.locks C (n + 1) hn
    cases e : β n with
    | none => rw [(none_eq E e).1]; exact H
    | some b =>
      cases b with
      | call j o =>
        obtain ⟨ew, _, _, h⟩ := call_eq E e
        rcases h with ⟨_, h⟩ | ⟨h1, h2, h3⟩
        · rw [h]; exact H
        · rw [ew, h3]
          by_cases ej : i = j
          · subst ej; rw [upd_same]; trivial
          · rw [upd_ne _ _ _ ej]; exact H
      | run j y qs =>
        obtain ⟨ew, h2, h3, _, hm⟩ := run_eq E e
        by_cases ej : i = j
        · subst ej
          cases eo : (τ n).op i with
          | get d =>
            rw [h2, eo] at P'
            exact get_no_prop P'
          | insert d v =>
            rw [eo] at P
            rw [ew] at K'
            rw [h3, ew, upd_same]
            exact H.own K eo K' P (L.ok i)
        · have F := E.others C (by omega) e ej
          have M := E.shift C (by omega) e
          have lk := L.ok i
          have lk' := L'.ok i
          have only := L'.only
          rw [h3, upd_ne _ _ _ ej] at lk' ⊢
          have only : ∀ L x, keeps (τ (n + 1)).w i ((τ n).ph i) L x → keeps (τ (n + 1)).w j (next (τ n) j y qs).2 L x → i = j := by
            intro L x a b
            refine only L x i j ?_ ?_
            · rw [h3, upd_ne _ _ _ ej]; exact a
            · rw [h3, upd_same]; exact b
          cases hp : (τ n).ph i with
          | prop K0 m x z k =>
            rw [hp] at H lk lk' only
            obtain ⟨a1, a2, a3⟩ := H
            obtain ⟨b1, b2, b3, b4⟩ := lk
            have hmade := K.ok.basic.made K0 b1
            have hx : k < 2 → ((τ n).w.f.layer K0).live x = true := by
              intro g
              obtain ⟨lv, eh⟩ := unlocking_iff (b3 g)
              exact (K.ok.ok K0 hmade).C.own x (by rw [show ((τ n).w.lay K0).c.hold x = _ from eh]; nofun) (by rw [show ((τ n).w.lay K0).c.hold x = _ from eh]; nofun)
            have num : ∀ x, ((τ n).w.f.layer K0).live x = true → ((τ (n + 1)).w.side K0).num x = ((τ n).w.side K0).num x := by
              intro x hx
              rw [ew]
              cases (next (τ n) j y qs).1 with
              | none => rfl
              | some a => exact num_live K.ok a hmade hx
            have main : ∀ u, ((τ n).w.f.layer K0).live u = true → keeps (τ (n + 1)).w i ((Ph.prop K0 m x z k : Ph V)) K0 u →
                ((((τ n).w.side K0).ix.heap.node (((τ n).w.side K0).num u)).locked = true → ((τ n).w.side K0).num u ∈ holds (((τ n).w.side K0).ix.pc i)) →
                (((τ (n + 1)).w.side K0).ix.heap.node (((τ (n + 1)).w.side K0).num u)).locked = true →
                ((τ (n + 1)).w.side K0).num u ∈ holds (((τ (n + 1)).w.side K0).ix.pc i) := by
              intro u hu hk hb hl
              rcases M.m5 K0 u (F.made K0 hmade) (M.m6 K0 u hmade hu) hl with ⟨_, g⟩ | ⟨_, _, _, g⟩
              · exact absurd (only _ _ hk g) ej
              · rw [num u hu, F.pc K0]; exact hb g
            refine ⟨by rw [F.pc K0]; exact a1, fun g => main z (b4 g).2 ⟨rfl, .inr ⟨rfl, g⟩⟩ (a2 g), fun g => main x (hx g) ⟨rfl, .inl ⟨rfl, g⟩⟩ (a3 g)⟩
          | _ => trivial
end

end Verif.Ops
