import Verif.Proof.IndexLimit4
set_option linter.unusedSimpArgs false
set_option linter.unusedVariables false
/-! A schedule that uses up the rounds of a split, part 5: the state from which it starts. -/
namespace Verif.Index
open Verif.Internode
variable {V : Type}

theorem run_idle {s : St V} {j : Nat} (hj : 2 ≤ j) (hs : s.pc j = .idle) : ∀ l : List (Act V), (∀ a ∈ l, Small a) → (run false true s l).pc j = .idle
  | [], _ => hs
  | a :: l, hl => by
    refine run_idle (s := act false true s a) hj ?_ l fun b hb => hl b (by simp [hb])
    have ha := hl a (by simp)
    cases a with
    | call i o =>
      have : j ≠ i := by have := ha.1; omega
      simp only [act]
      split <;> simp [upd, this, hs]
    | run i =>
      have : j ≠ i := by simp only [Small] at ha; omega
      simp [act, upd, this, hs]

/-- Thread `i` inserts `k` and takes `n` steps. -/
def insCall (i k n : Nat) : List (Act Nat) := .call i (.insert k k) :: List.replicate n (.run i)

/-- Thread 0 inserts 0, ..., 11 and 2^40, ..., 2^40 + 23, and begins to insert 2^40 + 24. -/
def limList : List (Act Nat) :=
  ((List.range 12).flatMap fun i => insCall 0 i 4) ++ ((List.range 12).flatMap fun i => insCall 0 (2 ^ 40 + i) 4) ++
    ((List.range 12).flatMap fun i => insCall 0 (2 ^ 40 + 12 + i) 18) ++ insCall 0 (2 ^ 40 + 24) 10

set_option maxRecDepth 100000 in
theorem limList_pass : passL init limList = true := by decide +kernel

def limState : St Nat := run false true init limList

def limCtx : Ctx Nat := ⟨.insert (2 ^ 40 + 24) (2 ^ 40 + 24), 3, 2, 4, 2 ^ 40 + 12, false, false, 0, 0⟩

def smallB : Act Nat → Bool
  | .call i o => i < 2 && o.key < 2 ^ 64
  | .run i => i < 2

set_option maxRecDepth 100000 in
theorem limList_small : ∀ a ∈ limList, Small a := by
  have h : ∀ a ∈ limList, smallB a = true := by decide +kernel
  intro a ha
  have := h a ha
  cases a <;> simpa [smallB, Small] using this

set_option maxRecDepth 100000 in
theorem limState_pc0 : limState.pc 0 = .par limCtx := by
  have h1 : (match limState.pc 0 with
    | .par c => (match c.o with | .insert a b => a == 2 ^ 40 + 24 && b == 2 ^ 40 + 24 | _ => false) &&
        c.r == 3 && c.l == 2 && c.y == 4 && c.sep == 2 ^ 40 + 12 && c.main == false && c.layer == false && c.rounds == 0 && c.stale == 0
    | _ => false) = true := by decide +kernel
  split at h1
  · rename_i c e
    rw [e]
    obtain ⟨o, r, l, y, sep, m, la, ro, st⟩ := c
    cases o <;> simp_all [limCtx]
  · cases h1

set_option maxRecDepth 100000 in
theorem limState_pc1 : limState.pc 1 = .idle := by
  have h1 : (match limState.pc 1 with | .idle => true | _ => false) = true := by decide +kernel
  split at h1
  · assumption
  · cases h1

theorem limState_two : limState = two (.par limCtx) limState.heap .idle := by
  have : limState.pc = (two (.par limCtx) limState.heap .idle).pc := by
    funext i
    by_cases e0 : i = 0
    · subst e0; exact limState_pc0
    · by_cases e1 : i = 1
      · subst e1; exact limState_pc1
      · rw [two_pc2 _ _ _ e0 e1]
        exact run_idle (by omega) rfl _ limList_small
  cases h : limState
  rw [h] at this
  simp only at this
  subst this; rfl

set_option maxRecDepth 100000 in
theorem lim_good : Good 12 (2 ^ 40) limState.heap limCtx.l 3 1 1 12 0 := by
  constructor
  · exact ⟨by decide +kernel, by decide +kernel⟩
  · exact ⟨by decide +kernel, by decide +kernel⟩
  · decide +kernel
  · decide +kernel
  · decide +kernel
  · decide +kernel
  · decide
  · decide +kernel
  · decide
  · decide +kernel
  · decide +kernel
  · intro i hi; omega
  · decide +kernel
  · decide +kernel
  · decide +kernel
  · decide +kernel
  · decide +kernel
  · decide
  · decide +kernel
  · exact ⟨by decide +kernel, by decide +kernel⟩

set_option maxRecDepth 100000 in
theorem lim_fresh : limState.heap.fresh = 5 := by decide +kernel

set_option maxRecDepth 100000 in
/-- The new leaf is the last one, and its keys are below `2 ^ 40 + 24`. -/
theorem lim_leaf : (limState.heap.node 2).next = 4 ∧ (limState.heap.node 4).next = 0 ∧ (limState.heap.node 4).lo ≤ 2 ^ 40 + 24 ∧
    (∀ e, e ∈ (limState.heap.node 4).ents → e.1 < 2 ^ 40 + 24) ∧ (limState.heap.node 4).ents.length = 12 := by decide +kernel

/-- Just before thread 0 gives up. -/
theorem lim_last : ∃ h c c1 T p a n m d, Rd (two (.par c) h c1 : St Nat) ∧ Rest c1 ∧ Good T (2 ^ 40) h 2 p a n m d ∧ T ≤ 2 ^ 40 ∧
    Same limCtx limState.heap h ∧ 64 ≤ c.rounds ∧ c.o = .insert (2 ^ 40 + 24) (2 ^ 40 + 24) ∧ c.l = 2 ∧ c.y = 4 := by
  have R : Rd limState := Rd.init.run limList limList_small limList_pass
  rw [limState_two] at R
  exact Rd.lose 0 64 R (.inl rfl) lim_good (by decide) (by decide) (by decide) (by rw [lim_fresh]; decide)

theorem lim_fail : ∃ h c1, Rd (two (.fail (.insert (2 ^ 40 + 24) (2 ^ 40 + 24)) .rounds) h c1 : St Nat) := by
  obtain ⟨h, c, c1, _, _, _, _, _, _, R, _, _, _, _, h64, ho, _, _⟩ := lim_last
  refine ⟨_, c1, R.to0 (h' := (h.mod c.y Node.unlock).mod c.l Node.unlock) ?_⟩
  simp only [step]
  rw [if_pos (by simp only [maxRounds]; exact h64), ho]

end Verif.Index
