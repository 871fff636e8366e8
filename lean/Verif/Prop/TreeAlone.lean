import Verif.Proof.TreeAlone
import Verif.Prop.TreeRace
set_option linter.unusedSimpArgs false
set_option linter.unusedVariables false
set_option maxRecDepth 100000
/-!
# A call that runs alone returns (C47)
-/
namespace Verif.Threads
open Verif.Spec
open Verif.Internode (upd upd_same upd_ne)
open Verif.Tree
variable {V : Type}

/-- A thread that is alone goes through the steps of `iter`. -/
theorem exec_iter {fixed : Bool} {σ : Nat → St V} {α : Nat → Act V} (E : Exec fixed σ α) {n i : Nat}
    (hrun : ∀ j, n ≤ j → α j = .run i) (m : Nat) :
    ((σ (n + m)).tree, (σ (n + m)).pc i) = iter fixed m ((σ n).tree, (σ n).pc i) := by
  induction m with
  | zero => rfl
  | succ m ih =>
    rw [iter_add fixed m 1, ← ih, ← Nat.add_assoc, E.next (n + m), hrun (n + m) (by omega)]
    simp only [act, upd_same, iter]

/-- C47.  Whatever all threads have done before step `n`, stopping anywhere in their calls: if from then on only thread `i` runs, its
call `o` returns, or had panicked because its key is longer than 256 bytes. -/
theorem C47_alone_returns {σ : Nat → St V} {α : Nat → Act V} (E : Exec false σ α) {n : Nat} (hn : n ≤ 2 ^ 128) {i : Nat}
    {o : Op V} (ho : ((σ n).pc i).op? = some o) (hrun : ∀ j, n ≤ j → α j = .run i) :
    (256 < o.key.length ∧ (σ n).pc i = .fail o .panic) ∨ ∃ m x, n ≤ m ∧ (σ m).pc i = .done o x := by
  obtain ⟨G, W⟩ := exec_ok E n hn
  have hfr := W.fresh
  rcases alone W.core.inv W.core.ru W.core.idb (W.ok i) (by omega) ho with ⟨h1, h2⟩ | ⟨t', x, m, h⟩
  · exact Or.inl ⟨h2, h1⟩
  · refine Or.inr ⟨n + m, x, by omega, ?_⟩
    have := exec_iter E hrun m
    rw [h] at this
    exact congrArg Prod.snd this

/-- The hypotheses are met in the midst of the execution `under`: stopped after step 20, thread 1 is at work in the sublayer while
thread 0 is stopped in the midst of another insert there. -/
theorem under_stopped : ∃ σ α, Exec false σ α ∧ ((σ 20).pc 1).op? = some (.insert (tail2 4) 4) ∧
    ((σ 20).pc 0).op? = some (.insert (tail2 3) 3) ∧ (∀ j, 20 ≤ j → α j = .run 1) ∧
    ∃ m x, 20 ≤ m ∧ (σ m).pc 1 = .done (.insert (tail2 4) 4) x := by
  let α : Nat → Act Nat := fun n => if n < 20 then under n else .run 1
  let σ : Nat → St Nat := Nat.rec ⟨Tree.empty, fun _ => .idle⟩ fun n s => act false s (α n)
  have E : Exec false σ α := ⟨rfl, fun _ => rfl⟩
  have h1 : ((σ 20).pc 1).op? = some (.insert (tail2 4) 4) := by decide +kernel
  have hrun : ∀ j, 20 ≤ j → α j = .run 1 := fun j hj => if_neg (by omega)
  refine ⟨σ, α, E, h1, by decide +kernel, hrun, ?_⟩
  rcases C47_alone_returns E (by decide) h1 hrun with ⟨c, _⟩ | h
  · exact absurd c (by decide)
  · exact h

end Verif.Threads
