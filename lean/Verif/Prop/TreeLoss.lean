import Verif.Prop.TreeRace
import Verif.Prop.TreeWitness
set_option linter.style.nameCheck false
/-!
# A lookup that is not linearizable (C46)
-/
namespace Verif.Threads
open Verif.Spec (Bytes)
open Verif.Tree (lossHistory)

/-- Thread 0 makes the inserts of `lossHistory` one after the other and then looks up `[200]`. -/
def lossActs : List (Act Nat) :=
  ((lossHistory.take 24).flatMap fun p => .call 0 (.insert p.1 p.2) :: List.replicate 6 (.run 0)) ++
    .call 0 (.insert [201, 12] 3011) :: List.replicate 12 (.run 0) ++ .call 0 (.get [200]) :: List.replicate 10 (.run 0)

/-- The actions of that execution. -/
def loss (n : Nat) : Act Nat := lossActs.getD n (.run 0)

/-- The states of that execution. -/
def lossSt : Nat → St Nat
  | 0 => ⟨Tree.empty, fun _ => .idle⟩
  | n + 1 => act false (lossSt n) (loss n)

theorem loss_exec : Exec false lossSt loss := ⟨rfl, fun _ => rfl⟩

/-- The call of an action. -/
def callOf : Act Nat → Option (Nat × Op Nat)
  | .call i o => some (i, o)
  | _ => none

/-- The key that a call inserts. -/
def inserts : Op Nat → Option Bytes
  | .insert d _ => some d
  | _ => none

set_option maxRecDepth 100000 in
/-- **C46 is violated.** One thread makes all calls, one after the other, so there is only one order in which they can take
effect.  It inserts `[200]` with value 2000, never mentions `[200]` again except to look it up, and finds nothing: an insert in
between has split a leaf between keys with equal slices (finding 1). -/
theorem C46_present_key_missed : Exec false lossSt loss ∧ (∀ n i o, loss n = .call i o → i = 0) ∧
    (lossSt 33).pc 0 = .done (.insert [200] 2000) none ∧
    (∀ n v, 33 ≤ n → loss n ≠ .call 0 (.insert [200] v)) ∧
    ∃ n, 33 ≤ n ∧ (lossSt n).pc 0 = .done (.get [200]) none := by
  have hr : ∀ n, 250 ≤ n → loss n = .run 0 := by
    intro n hn
    unfold loss
    rw [List.getD_eq_getElem?_getD, List.getElem?_eq_none (Nat.le_trans (by decide +kernel) hn)]; rfl
  have h1 : ∀ n, n < 250 → ((callOf (loss n)).map Prod.fst).getD 0 = 0 := by decide +kernel
  have h2 : ∀ n, n < 250 → 33 ≤ n → (callOf (loss n)).bind (fun p => inserts p.2) ≠ some [200] := by decide +kernel
  refine ⟨loss_exec, ?_, outcome_some (by decide +kernel), ?_, 192, by decide, outcome_some (by decide +kernel)⟩
  · intro n i o h
    by_cases hn : n < 250
    · have := h1 n hn
      rw [h] at this
      exact this
    · rw [hr n (by omega)] at h; cases h
  · intro n v hge h
    by_cases hn : n < 250
    · exact h2 n hn hge (by rw [h]; rfl)
    · rw [hr n (by omega)] at h; cases h

end Verif.Threads
