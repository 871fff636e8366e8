import Verif.Proof.OpsLive
import Verif.Prop.OpsAll
set_option linter.unusedSimpArgs false
set_option linter.unusedVariables false
/-!
# Inserts do not wait for each other in a circle (C66)
-/
namespace Verif.Ops
open Verif.Internode (upd upd_same upd_ne)
open Verif.Spec (Bytes)
open Verif.Whole (onLeaves beside lact)
variable {V : Type} {fixed strict : Bool} {τ : Nat → St V} {β : Nat → Option (Act V)} {N : Nat}

theorem upd_self {α : Type} (f : Nat → α) (i : Nat) : upd f i (f i) = f := by
  funext k
  by_cases e : k = i
  · subst e; rw [upd_same]
  · rw [upd_ne _ _ _ e]

/-- **C66** of the code as it is: whenever inserts are under way, one of them can move. -/
theorem C66_some_insert_moves (E : ExecAll fixed strict τ β) (C : Clean strict τ β N) (R : Regular τ β N) {n i : Nat} (hn : n ≤ N)
    (hi : Inserting (τ n) i) : ∃ k, Inserting (τ n) k ∧ ∃ y qs, actAll fixed strict (τ n) (.run k y qs) ≠ τ n := by
  obtain ⟨E', A⟩ := E.plain R
  have A : Agree τ _ N := A
  have C' := A.clean (Nat.le_refl N) C
  obtain ⟨k, hk, h⟩ := E'.live C' hn (by rw [A n hn]; exact hi)
  have rm := E'.room C' n hn
  have P := E'.phases C' n hn k
  have K := E'.know C' hn
  rw [A n hn] at hk h rm P K
  refine ⟨k, hk, ?_⟩
  have part : parting (τ n) k = true → ∃ y qs, actAll fixed strict (τ n) (.run k y qs) ≠ τ n := by
    intro g
    unfold parting at g
    split at g
    · rename_i L m x sp hp
      obtain ⟨_, d, v, ho⟩ := hk
      rw [ho, hp] at P
      obtain ⟨B, hB⟩ := rm.leaves L (K.ok.basic.made L P.1.place.up)
      refine ⟨B + 1, [], fun e => ?_⟩
      have g' : parting (τ n) k = true := by unfold parting; rw [hp]; exact g
      simp only [actAll, g', Bool.true_or, if_true] at e
      unfold detour at e
      rw [hp] at e
      dsimp only at e
      rw [if_pos ⟨hB _ (by omega), by omega⟩] at e
      have := congrArg (fun z => St.ph z k) e
      simp only [upd_same] at this
      rw [hp] at this
      cases this
    · cases g
  rcases h with ⟨y, qs, h⟩ | h
  · cases e1 : parting (τ n) k with
    | true => exact part e1
    | false =>
      cases e2 : lost (τ n) k with
      | false => exact ⟨y, qs, by simp only [actAll, e1, e2, Bool.or_self, Bool.false_eq_true, if_false]; exact h⟩
      | true =>
        refine ⟨0, [], fun e => ?_⟩
        simp only [actAll, e2, Bool.or_true, if_true] at e
        unfold lost at e2
        split at e2
        · rename_i L m hp
          split at e2
          · rename_i o r q h' hs hx
            unfold detour at e
            rw [hp] at e
            dsimp only at e
            rw [hs] at e
            have := congrArg (fun z => St.ph z k) e
            simp only [upd_same] at this
            rw [hp] at this
            cases this
          · cases e2
        · cases e2
  · exact part h

/-- **C66.** An insert that is the only one under way never waits. -/
theorem C66_alone (E : ExecAll fixed strict τ β) (C : Clean strict τ β N) (R : Regular τ β N) {n i : Nat} (hn : n ≤ N) (hi : Inserting (τ n) i)
    (ha : ∀ k, Inserting (τ n) k → k = i) : ∃ y qs, actAll fixed strict (τ n) (.run i y qs) ≠ τ n := by
  obtain ⟨k, hk, h⟩ := C66_some_insert_moves E C R hn hi
  rw [ha k hk] at h; exact h

/-! ## One that waits -/

/-- At a leaf whose next pointer is marked nothing happens. -/
theorem waits_mark {s : St V} {i L m h x : Nat} {o : Index.Op Unit} {r n : Nat} {d : Bytes} {v : V} (ho : s.op i = .insert d v)
    (hp : s.ph i = .down L m) (h1 : (s.w.side L).ix.pc i = .sect o r n) (h2 : (s.w.side L).ins i = .adv (h + 1) x)
    (h3 : ((s.w.f.layer L).leaf x).mark = true) (y : Nat) (qs : List Nat) : actAll fixed strict s (.run i y qs) = s := by
  have e1 : parting s i = false := by unfold parting; rw [hp]
  have e2 : lost s i = false := by unfold lost; rw [hp]; dsimp only; rw [h1, h2]; rfl
  simp only [actAll, e1, e2, Bool.or_self, Bool.false_eq_true, if_false]
  have eo : (s.w.side L).owns i = none := by simp only [Whole.Side.owns, h1, h2]
  have nx : next s i y qs = (some (.inLayer L (.step i)), .down L m) := by
    unfold next
    rw [ho, hp]
    show down _ _ _ _ _ _ = _
    unfold down
    rw [h1]
    simp only [eo, checked, h1, h2]
  have el : (s.w.lay L).c = s.w.f.layer L := rfl
  have g1 : onLeaves (s.w.lay L) (.step i) = none := by
    simp only [onLeaves]
    rw [show (s.w.lay L).s = s.w.side L from rfl, h1, h2]
  have g2 : beside strict (L == 0) (s.w.lay L) (.step i) = s.w.side L := by
    simp only [beside]
    rw [show (s.w.lay L).s = s.w.side L from rfl, h1, h2]
    dsimp only
    rw [if_neg (by omega), if_pos (by rw [el]; exact h3)]
  have ew : Whole.act fixed strict s.w (.inLayer L (.step i)) = s.w := by
    simp only [Whole.act]
    split
    · simp only [lact, g1, g2, Bool.or_false]
      rw [el, upd_self, upd_self]
    · rfl
  have ec : counted (s.ph i) = 0 := by rw [hp]; rfl
  unfold act
  simp only [nx, ew, ec, Nat.add_zero]
  rw [← hp, upd_self]

/-- While thread 0 splits the only leaf, thread 1 begins an insert. -/
def queued : List (Act Nat) := filled.take 445 ++ .call 1 (.insert (key8 50) 7) :: List.replicate 20 (.run 1 3 [])

theorem plain_trace (as : List (Act Nat)) : ∀ n, plain fixed strict empty (fun n => as[n]?) n = trace fixed strict empty as n
  | 0 => rfl
  | n + 1 => by
    rw [trace_steps, ← plain_trace as n]
    rfl

set_option maxRecDepth 100000 in
theorem queued_regular : Regular (traceAll false false empty queued) (fun n => queued[n]?) 450 := by
  intro n hn i hi
  have := walk_spec (f := actAll false false) (p := fun n s => !parting s 0 && !lost s 0 && (!parting s 1 && !lost s 1)) (as := queued) (s := empty)
    (k := 0) (by decide +kernel) (n := n) (by rw [show queued.length = 466 by decide +kernel]; omega)
  simp only [Bool.and_eq_true, Bool.not_eq_true'] at this
  have h0 : i = 0 ∨ i = 1 := by
    obtain ⟨y, qs, e⟩ := hi
    have : queued.all (fun a => match a with | .run i _ _ => i == 0 || i == 1 | _ => true) = true := by decide +kernel
    have := List.all_eq_true.1 this _ (List.mem_of_getElem? e)
    simpa using this
  rcases h0 with h0 | h0 <;> subst h0
  · exact this.1
  · exact this.2

set_option maxRecDepth 100000 in
/-- Both inserts are under way, and thread 1 waits at the leaf that thread 0 splits: no step of it changes anything. -/
theorem C66_witness :
    let τ := traceAll false false empty queued
    ExecAll false false τ (fun n => queued[n]?) ∧ Clean false τ (fun n => queued[n]?) 450 ∧ Regular τ (fun n => queued[n]?) 450 ∧
      Inserting (τ 450) 0 ∧ Inserting (τ 450) 1 ∧ ∀ y qs, actAll false false (τ 450) (.run 1 y qs) = τ 450 := by
  have E := traceAll_exec (fixed := false) (strict := false) queued
  have A := (E.plain queued_regular).2
  have C : Clean false (trace false false empty queued) (fun n => queued[n]?) 466 := clean_trace (as := queued) (by decide +kernel)
  have A' : Agree (trace false false empty queued) (traceAll false false empty queued) 450 := fun n hn => by
    rw [← plain_trace]; exact (A n hn).symm
  refine ⟨E, A'.clean (Nat.le_refl _) (Whole.Clean.sub C (by omega)), queued_regular, ⟨by decide +kernel, _, _, by with_unfolding_all rfl⟩,
    ⟨by decide +kernel, _, _, by with_unfolding_all rfl⟩, fun y qs => ?_⟩
  exact waits_mark (L := 0) (m := 0) (h := 127) (x := 1) (by with_unfolding_all rfl) (by with_unfolding_all rfl) (by with_unfolding_all rfl)
    (by with_unfolding_all rfl) (by decide +kernel) y qs

end Verif.Ops
