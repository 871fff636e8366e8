import Verif.Proof.IndexInv
set_option linter.unusedSimpArgs false
set_option linter.unusedVariables false
/-! Executions of the index machine: failures, waiting and the length of locked sections. -/
namespace Verif.Index
open Verif.Internode
variable {V : Type}

/-- An execution from the empty layer. -/
structure Exec (strict main : Bool) (σ : Nat → St V) (α : Nat → Act V) : Prop where
  start : σ 0 = init
  next : ∀ n, σ (n + 1) = act strict main (σ n) (α n)

/-- Thread `i` has failed. -/
def Failed (s : St V) (i : Nat) : Prop := ∃ o e, s.pc i = .fail o e

/-- Thread `i` is inside a call. -/
def InCall (s : St V) (i : Nat) : Prop := s.pc i ≠ .idle ∧ (∀ o x, s.pc i ≠ .done o x) ∧ ∀ o e, s.pc i ≠ .fail o e

theorem failed_act {strict main : Bool} {s : St V} {i : Nat} (h : Failed s i) (a : Act V) : Failed (act strict main s a) i := by
  obtain ⟨o, e, h⟩ := h
  refine ⟨o, e, ?_⟩
  cases a with
  | call j o' =>
    simp only [act]
    by_cases c : i = j
    · subst c; rw [h]; exact h
    · split
      · simp only [upd_ne _ _ _ c]; exact h
      · simp only [upd_ne _ _ _ c]; exact h
      · exact h
  | run j =>
    by_cases c : i = j
    · subst c; simp only [act, upd_same, h, step]
    · simp only [act, upd_ne _ _ _ c]; exact h

theorem exec_inv {strict main : Bool} {σ : Nat → St V} {α : Nat → Act V} (E : Exec strict main σ α) :
    ∀ n, (∀ i, ¬ Failed (σ n) i) → Inv main (σ n)
  | 0, _ => by rw [E.start]; exact init_inv main
  | n + 1, h => by
    have hn : ∀ i, ¬ Failed (σ n) i := fun i hi => h i (by rw [E.next]; exact failed_act hi _)
    rcases (exec_inv E n hn).act (strict := strict) (α n) with ⟨i, x, _, _, _, e⟩ | g
    · exact absurd ⟨_, _, by rw [E.next]; exact e⟩ (h i)
    · rw [E.next]; exact g

/-- What a thread waits for. -/
def waits (s : Heap V) : Pc V → Option Nat
  | .stab _ _ p => if (s.node p).locked then some p else none
  | .look _ l => if (s.node l).locked then some l else none
  | .sect _ _ l => if (s.node l).locked then some l else none
  | .lck _ p => if (s.node p).locked then some p else none
  | _ => none

theorem shiftStores_length (a : Arr Nat) (p : Nat) : ∀ k, (shiftStores a p k).length = 2 * k
  | 0 => rfl
  | k + 1 => by simp only [shiftStores, List.length_cons, shiftStores_length a p k]; omega

theorem insertStores_length (a : Arr Nat) (p ik c : Nat) : (insertStores a p ik c).length = 2 * (a.nkeys - p) + 3 := by
  simp [insertStores, shiftStores_length]

/-- A thread that is not at a locked node moves on. -/
theorem moves {strict main : Bool} {s : Heap V} {O B : Nat → Prop} (H : HInv main s O B) {c : Pc V} (ok : PcOk main s c)
    (hc : c ≠ .idle ∧ (∀ o x, c ≠ .done o x) ∧ ∀ o e, c ≠ .fail o e) (hw : waits s c = none) : (step strict main s c).2 ≠ c := by
  cases c with
  | idle => exact absurd rfl hc.1
  | done o x => exact absurd rfl (hc.2.1 o x)
  | fail o e => exact absurd rfl (hc.2.2 o e)
  | climb o p =>
    simp only [step]
    split
    · simp
    · rename_i h0
      intro e
      injection e with _ e
      obtain ⟨a, b, k, d, f⟩ := H.par p ok h0
      have := (H.kid _ a b k d).2.2
      rw [f, e] at this; omega
  | stab o r p =>
    simp only [waits] at hw
    simp only [step]
    split at hw
    · simp at hw
    · rename_i h; rw [if_neg h]
      split
      · cases o <;> simp
      · simp
  | nk o r p w => simp [step]
  | cmp o r p w a b =>
    simp only [step]
    split
    · split
      · simp; omega
      · split
        · simp
        · simp; omega
    · simp
  | chld o r p w i => simp only [step]; split <;> simp
  | chk o r p w c => simp only [step]; split <;> simp
  | chk2 o r p w => simp only [step]; split <;> simp
  | look o l =>
    simp only [waits] at hw
    simp only [step]
    split at hw
    · simp at hw
    · rename_i h; rw [if_neg h]; split <;> simp
  | nxt o l => simp only [step]; split <;> simp
  | adv o r h l =>
    cases h with
    | zero => simp [step]
    | succ h => simp only [step]; split <;> simp
  | sect o r l =>
    obtain ⟨_, _, _, t, v, rfl⟩ := ok
    simp only [waits] at hw
    simp only [step]
    split at hw
    · simp at hw
    · rename_i h; rw [if_neg h]
      split
      · simp
      · split
        · simp
        · split <;> simp
  | par c =>
    simp only [step]
    split
    · simp
    · split
      · split
        · simp
        · split
          · split <;> simp
          · simp
      · simp
  | lck c p =>
    simp only [waits] at hw
    simp only [step]
    split at hw
    · simp at hw
    · rename_i h; rw [if_neg h]; simp
  | rechk c p =>
    simp only [step]
    split
    · simp
    · split
      · split <;> simp
      · split <;> simp
  | ins c p todo =>
    cases todo with
    | nil => simp [step]
    | cons st todo => simp [step]

theorem run_moves {strict main : Bool} {s : St V} (I : Inv main s) {i : Nat} (hc : InCall s i) (hw : waits s.heap (s.pc i) = none) :
    act strict main s (.run i) ≠ s := by
  intro e
  have : (act strict main s (.run i)).pc i = s.pc i := by rw [e]
  simp only [act, upd_same] at this
  exact moves I.H (I.ok i) hc hw this

/-- Whoever holds the lock of a node, or somebody further up, can move. -/
theorem holder_moves {strict main : Bool} {s : St V} (I : Inv main s) : ∀ k n, Al s.heap n → (s.heap.node n).locked = true →
    (s.heap.node s.heap.top).ht < (s.heap.node n).ht + k →
    ∃ j, holds (s.pc j) ≠ [] ∧ waits s.heap (s.pc j) = none := by
  intro k
  induction k with
  | zero => intro n hn _ h; have := I.H.low n hn; omega
  | succ k ih =>
    intro n hn hl h
    obtain ⟨j, hj⟩ := I.held n hn hl
    have hne : holds (s.pc j) ≠ [] := by intro e; rw [e] at hj; simp at hj
    by_cases hw : waits s.heap (s.pc j) = none
    · exact ⟨j, hne, hw⟩
    · cases hp : s.pc j with
      | lck c p =>
        have ok := I.ok j
        rw [hp] at ok hw hj
        simp only [waits] at hw
        have hlk : (s.heap.node p).locked = true := by
          split at hw
          · assumption
          · exact absurd rfl hw
        refine ih p ok.2.1 hlk ?_
        have e : (s.heap.node n).ht = (s.heap.node c.l).ht := by
          simp only [holds, List.mem_cons, List.not_mem_nil, or_false] at hj
          rcases hj with g | g <;> rw [g]
          exact ok.1.ht
        have := ok.2.2
        omega
      | _ => rw [hp] at hne hw; simp [holds, waits] at hne hw

theorem holds_inCall {s : St V} {j : Nat} (h : holds (s.pc j) ≠ []) : InCall s j := by
  refine ⟨?_, ?_, ?_⟩ <;> intros <;> intro e <;> rw [e] at h <;> exact h rfl

/-- Steps left before a thread releases its locks. -/
def mu : Pc V → Nat
  | .par c => (maxRounds - c.rounds) * 50 + 49
  | .lck c _ => (maxRounds - c.rounds) * 50 + 98
  | .rechk c _ => (maxRounds - c.rounds) * 50 + 97
  | .ins c _ todo => (maxRounds - c.rounds) * 50 + 60 + todo.length
  | _ => 3300

/-- No more stores to make than one insertion takes. -/
def Short : Pc V → Prop
  | .ins _ _ todo => todo.length ≤ 33
  | _ => True

theorem mu_le {c : Pc V} (h : Short c) : mu c ≤ 3300 := by
  cases c <;> simp only [mu, maxRounds, Short] at * <;> omega

theorem mu_step {strict main : Bool} {s : Heap V} {c : Pc V} (h : holds c ≠ []) (hm : (step strict main s c).2 ≠ c) :
    holds (step strict main s c).2 = [] ∨ mu (step strict main s c).2 < mu c := by
  cases c with
  | par c =>
    simp only [step]
    split
    · left; rfl
    · rename_i hr
      split
      · split
        · left; rfl
        · split
          · split <;> exact .inl rfl
          · exact .inl rfl
      · right; simp only [mu]; unfold maxRounds at *; omega
  | lck c p =>
    simp only [step] at hm ⊢
    split
    · rename_i g; rw [if_pos g] at hm; exact absurd rfl hm
    · right; simp only [mu]; omega
  | rechk c p =>
    simp only [step]
    split
    · right; simp only [mu]; omega
    · split
      · split
        · left; rfl
        · right; simp only [mu]; omega
      · split
        · rename_i g; right; simp only [mu, insertStores_length]; unfold inodeWidth at g; omega
        · right; simp only [mu]; omega
  | ins c p todo =>
    cases todo with
    | nil => left; rfl
    | cons st todo => right; simp only [step, mu, List.length_cons]; omega
  | _ => exact absurd rfl h

theorem short_step {strict main : Bool} {s : Heap V} {c : Pc V} (h : Short c) : Short (step strict main s c).2 := by
  cases c with
  | rechk c p =>
    simp only [step]
    split
    · trivial
    · split
      · split <;> trivial
      · split
        · rename_i g; simp only [Short, insertStores_length]; unfold inodeWidth at g; omega
        · trivial
  | ins c p todo =>
    cases todo with
    | nil => trivial
    | cons st todo => simp only [step, Short, List.length_cons] at h ⊢; omega
  | par c =>
    simp only [step]
    split
    · trivial
    · split
      · split
        · trivial
        · split
          · split <;> trivial
          · trivial
      · trivial
  | lck c p => simp only [step]; split <;> trivial
  | sect o r l =>
    cases o with
    | get t => trivial
    | insert t v =>
      simp only [step]
      split
      · trivial
      · split
        · trivial
        · split
          · trivial
          · split <;> trivial
  | idle => trivial
  | climb o p => simp only [step]; split <;> trivial
  | stab o r p =>
    simp only [step]
    split
    · trivial
    · split
      · cases o <;> trivial
      · trivial
  | nk o r p w => trivial
  | cmp o r p w a b =>
    simp only [step]
    split
    · split
      · trivial
      · split <;> trivial
    · trivial
  | chld o r p w i => simp only [step]; split <;> trivial
  | chk o r p w c => simp only [step]; split <;> trivial
  | chk2 o r p w => simp only [step]; split <;> trivial
  | look o l =>
    simp only [step]
    split
    · trivial
    · split <;> trivial
  | nxt o l => simp only [step]; split <;> trivial
  | adv o r k l =>
    cases k with
    | zero => trivial
    | succ k => simp only [step]; split <;> trivial
  | done o r => trivial
  | fail o e => trivial

theorem exec_short {strict main : Bool} {σ : Nat → St V} {α : Nat → Act V} (E : Exec strict main σ α) (i : Nat) : ∀ n, Short ((σ n).pc i)
  | 0 => by rw [E.start]; trivial
  | n + 1 => by
    have ih := exec_short E i n
    rw [E.next]
    cases α n with
    | call j o =>
      simp only [act]
      split
      · by_cases c : i = j
        · subst c; simp only [upd_same]; trivial
        · simp only [upd_ne _ _ _ c]; exact ih
      · by_cases c : i = j
        · subst c; simp only [upd_same]; trivial
        · simp only [upd_ne _ _ _ c]; exact ih
      · exact ih
    | run j =>
      by_cases c : i = j
      · subst c; simp only [act, upd_same]; exact short_step ih
      · simp only [act, upd_ne _ _ _ c]; exact ih

/-- Steps of thread `i` that are not waits, among the first `k` from step `n`. -/
noncomputable def moveCount (σ : Nat → St V) (α : Nat → Act V) (i n : Nat) : Nat → Nat
  | 0 => 0
  | k + 1 => moveCount σ α i n k + (open Classical in if α (n + k) = .run i ∧ (σ (n + k + 1)).pc i ≠ (σ (n + k)).pc i then 1 else 0)

theorem moveCount_mu {strict main : Bool} {σ : Nat → St V} {α : Nat → Act V} (E : Exec strict main σ α) (i n : Nat) : ∀ k,
    (∀ m, m ≤ k → holds ((σ (n + m)).pc i) ≠ []) → moveCount σ α i n k + mu ((σ (n + k)).pc i) ≤ mu ((σ n).pc i)
  | 0, _ => by simp [moveCount]
  | k + 1, h => by
    have ih := moveCount_mu E i n k (fun m hm => h m (by omega))
    have h1 := h k (by omega)
    have h2 := h (k + 1) (by omega)
    rw [← Nat.add_assoc] at h2 ⊢
    have en := E.next (n + k)
    simp only [moveCount]
    split
    · rename_i g
      have e : (σ (n + k + 1)).pc i = (step strict main (σ (n + k)).heap ((σ (n + k)).pc i)).2 := by
        rw [en, g.1]; simp only [act, upd_same]
      rw [e] at h2 ⊢
      rcases mu_step h1 (by rw [← e]; exact g.2) with a | a
      · exact absurd a h2
      · omega
    · rename_i g
      have e : (σ (n + k + 1)).pc i = (σ (n + k)).pc i := by
        by_cases c : α (n + k) = .run i
        · by_cases d : (σ (n + k + 1)).pc i = (σ (n + k)).pc i
          · exact d
          · exact absurd ⟨c, d⟩ g
        · rw [en]
          cases ha : α (n + k) with
          | call j o =>
            simp only [act]
            by_cases cj : i = j
            · subst cj
              split
              · rename_i q; rw [q] at h1; exact absurd rfl h1
              · rename_i q; rw [q] at h1; exact absurd rfl h1
              · rfl
            · split
              · simp only [upd_ne _ _ _ cj]
              · simp only [upd_ne _ _ _ cj]
              · rfl
          | run j =>
            have cj : i ≠ j := by intro q; subst q; exact c ha
            simp only [act, upd_ne _ _ _ cj]
      rw [e]; omega

end Verif.Index
