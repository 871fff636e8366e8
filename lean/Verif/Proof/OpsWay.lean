import Verif.Proof.OpsLone2
import Verif.Proof.OpsLive
import Verif.Proof.OpsGet
set_option linter.unusedSimpArgs false
set_option linter.unusedVariables false
set_option linter.unusedTactic false
/-! An insert that is on its way down holds no node of the index. -/
namespace Verif.Ops
open Verif.Internode (upd upd_same upd_ne)
open Verif.Spec (Bytes)
open Verif.Index (Al holds)
open Verif.Whole (Inside isLocked Frame WOk LAct onLeaves beside raw lact inIndex LOk IPc)
variable {V : Type} {fixed strict : Bool}

/-- In the descent, or about to look again at a node that has changed. -/
def slides : Index.Pc Unit → Bool
  | .chk2 _ _ _ _ => true
  | p => falls p

/-- Somewhere on the way down. -/
def way : Index.Pc Unit → Bool
  | .adv _ _ _ _ | .sect _ _ _ => true
  | p => slides p

/-- An insert on the way down. -/
def WayOk (w : Whole.St V) (i : Nat) : Ph V → Prop
  | .down L _ => way ((w.side L).ix.pc i) = true
  | .undo L _ _ => ∃ o r, (w.side L).ix.pc i = .climb o r
  | _ => True

theorem way_holds {pc : Index.Pc Unit} (h : way pc = true) : holds pc = [] := by
  cases pc <;> first | rfl | (cases h; done)

theorem slides_in {pc : Index.Pc Unit} (h : slides pc = true) : inIndex pc = true := by
  cases pc <;> first | rfl | (cases h; done)

theorem slides_step {main : Bool} {h : Index.Heap Unit} {pc : Index.Pc Unit} (hs : slides pc = true) {t : Nat} (ho : pc.op = some (.insert t ())) :
    (Index.step strict main h pc).1 = h ∧ way (Index.step strict main h pc).2 = true := by
  cases pc <;> first | (cases hs; done) | skip
  case stab o r p =>
    have e : o = .insert t () := by injection ho
    subst e
    simp only [Index.step]
    repeat' split
    all_goals exact ⟨rfl, rfl⟩
  all_goals
    simp only [Index.step]
    (repeat' split) <;> first | exact ⟨rfl, rfl⟩ | exact ⟨trivial, rfl⟩

section
variable {s : St V} {d : Bytes} {v : V} {i L m : Nat}

theorem walk_side (hu : s.w.f.up L = true) (hi : inIndex ((s.w.side L).ix.pc i) = true) :
    ((Whole.act fixed strict s.w (.inLayer L (.walk i))).side L).ix.pc i = (Index.step strict (L == 0) (s.w.side L).ix.heap ((s.w.side L).ix.pc i)).2 ∧
    ((Whole.act fixed strict s.w (.inLayer L (.walk i))).side L).ix.heap = (Index.step strict (L == 0) (s.w.side L).ix.heap ((s.w.side L).ix.pc i)).1 := by
  have eb : beside strict (L == 0) (s.w.lay L) (.walk i) = { s.w.side L with ix := Index.act strict (L == 0) (s.w.side L).ix (.run i) } := by
    simp only [beside]; exact if_pos hi
  rw [post_side_same hu, eb]
  exact ⟨upd_same _ _ _, rfl⟩

theorem way_own {y : Nat} {qs : List Nat} (ho : s.op i = .insert d v) (P : PutOk s.w d v i (s.ph i)) (H : WayOk s.w i (s.ph i)) :
    WayOk (after fixed strict s.w (next s i y qs).1) i (next s i y qs).2 := by
  cases hp : s.ph i with
  | idle => unfold next; rw [hp]; trivial
  | ret r => unfold next; rw [hp]; trivial
  | err => unfold next; rw [hp]; trivial
  | read L m => rw [hp] at P; exact P.elim
  | count => unfold next; rw [hp]; trivial
  | publish L m x pos off => unfold next; rw [hp]; trivial
  | close L x a => unfold next; rw [hp]; trivial
  | drop L x a => unfold next; rw [hp]; dsimp only; cases a <;> trivial
  | store L m x t pos off n => unfold next; rw [hp, ho]; dsimp only; split <;> trivial
  | conv L m x => unfold next; rw [hp]; dsimp only; (repeat' split) <;> trivial
  | freeze L m x sp => unfold next; rw [hp]; dsimp only; split <;> trivial
  | part L m x z => unfold next; rw [hp]; dsimp only; split <;> trivial
  | enter L m =>
    rw [hp] at P
    have en : next s i y qs = (some (.inLayer L (.call i (keyAt (s.op i) m) (s.op i).put)), .down L m) := by unfold next; rw [hp]
    rw [en]
    have hu := P.2.up
    have eb : beside strict (L == 0) (s.w.lay L) (.call i (keyAt (s.op i) m) (s.op i).put) =
        { s.w.side L with key := upd (s.w.side L).key i (keyAt (s.op i) m)
                          ix := { (s.w.side L).ix with pc := upd (s.w.side L).ix.pc i (.climb (.insert (kat d m).ikey ()) (s.w.side L).ix.heap.root) } } := by
      rw [ho]
      simp only [beside]
      rw [show (s.w.lay L).s = s.w.side L from rfl]
      rcases out_cases (P.1 L).out with e | ⟨o, r, e⟩
      · rw [e]; dsimp only; unfold Index.act; dsimp only; rw [e]; rfl
      · rw [e]; dsimp only; unfold Index.act; dsimp only; rw [e]; rfl
    show way (((Whole.act fixed strict s.w _).side L).ix.pc i) = true
    rw [post_side_same hu, eb]
    dsimp only
    rw [upd_same]; rfl
  | undo L m x =>
    rw [hp] at P H
    have en : next s i y qs = (some (.inLayer L (.unlock x)), .down L m) := by unfold next; rw [hp]
    rw [en]
    show way (((Whole.act fixed strict s.w _).side L).ix.pc i) = true
    rw [post_side_same P.1.place.up]
    obtain ⟨o, r, H⟩ := H
    show way ((s.w.side L).ix.pc i) = true
    rw [H]; rfl
  | prop L m x z n =>
    have en : next s i y qs = spread s.w L m i x z n := by unfold next; rw [hp]
    rw [en]
    unfold spread
    dsimp only
    split
    · trivial
    · split
      · trivial
      · split
        · rename_i e
          split
          · show way ((s.w.side L).ix.pc i) = true
            rw [e]; rfl
          · trivial
        · trivial
        · trivial
  | down L m =>
    rw [hp] at P H
    obtain ⟨P, Pl⟩ := P
    have H : way ((s.w.side L).ix.pc i) = true := H
    have hu := P.place.up
    have en : next s i y qs = down s.w (s.op i) L m i qs := by unfold next; rw [hp]
    by_cases hs : slides ((s.w.side L).ix.pc i) = true
    · have en' : next s i y qs = (some (.inLayer L (.walk i)), .down L m) := by
        rw [en]
        unfold down
        cases e : (s.w.side L).ix.pc i <;> rw [e] at hs <;> first | rfl | (cases hs; done)
      rw [en']
      show way (((Whole.act fixed strict s.w _).side L).ix.pc i) = true
      rw [(walk_side hu (slides_in hs)).1]
      exact (slides_step hs P.op).2
    · cases e : (s.w.side L).ix.pc i with
      | adv o r g n =>
        have en' : next s i y qs = (some (.inLayer L (.enter i)), .down L m) := by rw [en]; unfold down; rw [e]
        rw [en']
        show way (((Whole.act fixed strict s.w _).side L).ix.pc i) = true
        have eb : beside strict (L == 0) (s.w.lay L) (.enter i) = ((s.w.side L).goto i (.sect o r n)).move i (.adv g ((s.w.side L).leaf n)) := by
          simp only [beside]
          rw [show (s.w.lay L).s = s.w.side L from rfl, e]
        rw [post_side_same hu, eb]
        simp only [Whole.Side.goto, Whole.Side.move, upd_same]; rfl
      | sect o r n =>
        cases eo : (s.w.side L).owns i with
        | none =>
          have en' : next s i y qs = (some (.inLayer L (.step i)), checked s.w L m i) := by rw [en, ho]; unfold down; rw [e]; dsimp only; rw [eo]
          rw [en']
          have es : (s.w.lay L).s = s.w.side L := rfl
          have ec : (s.w.lay L).c = s.w.f.layer L := rfl
          have ew : way ((beside strict (L == 0) (s.w.lay L) (.step i)).ix.pc i) = true := by
            simp only [beside]
            rw [es, e]
            split
            · repeat' split
              all_goals first
                | (simp only [Whole.Side.goto, Whole.Side.move, upd_same]; first | rfl | (rw [e]; rfl))
                | (rw [e]; rfl)
            · split
              all_goals first
                | (simp only [Whole.Side.goto, Whole.Side.move, upd_same]; first | rfl | (rw [e]; rfl))
                | (rw [e]; rfl)
            · split
              all_goals first
                | (simp only [Whole.Side.goto, Whole.Side.move, upd_same]; first | rfl | (rw [e]; rfl))
                | (rw [e]; rfl)
            · split
              all_goals first
                | (simp only [Whole.Side.goto, Whole.Side.move, upd_same]; first | rfl | (rw [e]; rfl))
                | (rw [e]; rfl)
            · rw [e]; rfl
          have hd : way (((Whole.act fixed strict s.w (.inLayer L (.step i))).side L).ix.pc i) = true := by
            rw [post_side_same hu]; exact ew
          unfold checked
          rw [e]
          split
          · rename_i o' _ _ x e1 e2
            injection e1 with e1
            subst e1
            split
            · rename_i g
              refine ⟨o, r, ?_⟩
              show ((Whole.act fixed strict s.w (.inLayer L (.step i))).side L).ix.pc i = _
              rw [post_side_same hu]
              simp only [beside]
              rw [es, e, e2]
              dsimp only
              rw [ec, g]
              simp only [if_true, Whole.Side.goto, upd_same]
            · exact hd
          · exact hd
        | some x =>
          have en' : next s i y qs = decide s.w L m i x d v qs := by rw [en, ho]; unfold down; rw [e]; dsimp only; rw [eo]
          rw [en']
          unfold decide splitOr
          dsimp only
          repeat' split
          all_goals first
            | trivial
            | exact H
      | _ =>
        rw [e] at H hs
        exact absurd H hs
end

section
variable {τ : Nat → St V} {β : Nat → Option (Act V)} {N : Nat}

/-- At every moment every insert that is on the way down is in the descent or among the leaves. -/
theorem Exec.way (E : Exec fixed strict τ β) (C : Clean strict τ β N) : ∀ n, n ≤ N → ∀ i d v, (τ n).op i = .insert d v → WayOk (τ n).w i ((τ n).ph i)
  | 0, _, i, d, v, _ => by rw [E.start.idle i]; trivial
  | n + 1, hn, i, d, v, ho => by
    have ih := Exec.way E C n (by omega) i
    by_cases hr : Runs β i n
    · obtain ⟨y, qs, e⟩ := hr
      obtain ⟨k1, k2, k3, _, _⟩ := run_eq E e
      rw [k2] at ho
      have P := E.phases C n (by omega) i
      rw [ho] at P
      rw [k1, k3, upd_same]
      exact way_own ho P (ih d v ho)
    · have F := E.still C (n := n) (by omega) hr
      have keep : ∀ p, WayOk (τ n).w i p → WayOk (τ (n + 1)).w i p := by
        intro p h
        cases p <;> first | trivial | skip
        case down L m => show Ops.way _ = true; rw [F.pc L]; exact h
        case undo L m x => obtain ⟨o, r, h⟩ := h; exact ⟨o, r, by rw [F.pc L]; exact h⟩
      cases e : β n with
      | none =>
        have := (none_eq E e).1
        rw [this] at ho ⊢
        exact ih d v ho
      | some x =>
        cases x with
        | call j o =>
          obtain ⟨k1, _, _, g⟩ := call_eq E e
          rcases g with ⟨_, g⟩ | ⟨g, g1, g2⟩
          · rw [g] at ho ⊢; exact ih d v ho
          · by_cases e' : i = j
            · subst e'
              rw [g2, upd_same]; trivial
            · rw [g1, upd_ne _ _ _ e'] at ho
              rw [g2, upd_ne _ _ _ e']
              exact keep _ (ih d v ho)
        | run j y qs =>
          have hj : i ≠ j := by rintro rfl; exact hr ⟨y, qs, e⟩
          obtain ⟨k1, k2, k3, _, _⟩ := run_eq E e
          rw [k2] at ho
          rw [k3, upd_ne _ _ _ hj]
          exact keep _ (ih d v ho)
end
end Verif.Ops
