import Verif.Proof.IndexHeight
import Verif.Proof.IndexLimit5
set_option linter.unusedVariables false
/-!
# Splits moving up the index under lookups and inserts: C48, C49, C50

Statements about the machine of `Model/IndexRace.lean` (one layer, keys with different slices, any number of threads).
`strict = false` is the code.
-/
namespace Verif.Index
variable {V : Type}

/-! ## Witnesses -/

deriving instance DecidableEq for Op
deriving instance DecidableEq for Ctx
deriving instance DecidableEq for Pc
deriving instance DecidableEq for Act

/-- Not inside a call. -/
def rest : Pc Nat → Bool
  | .idle => true
  | .done _ _ => true
  | _ => false

theorem of_rest {c : Pc Nat} (h : rest c = true) : c = .idle ∨ ∃ o x, c = .done o x := by
  cases c with
  | idle => exact .inl rfl
  | done o x => exact .inr ⟨o, x, rfl⟩
  | _ => cases h

/-- Thread `i` calls `o` and makes `k` steps. -/
def oneCall (i : Nat) (o : Op Nat) (k : Nat) : List (Act Nat) := .call i o :: List.replicate k (.run i)

/-- Thread 0 inserts 100, 200, ..., 1300. -/
def wit1 : List (Act Nat) := (List.range 13).flatMap fun i => oneCall 0 (.insert (100 * (i + 1)) i) 13

/-- It goes on to 3700 (two leaf splits) and then fills the first leaf again. -/
def wit2 : List (Act Nat) :=
  ((List.range 24).flatMap fun i => oneCall 0 (.insert (100 * (i + 14)) (i + 13)) (if i = 11 ∨ i = 23 then 30 else 13)) ++
  ((List.range 12).flatMap fun i => oneCall 0 (.insert (101 + i) i) 13)

/-- Threads 2 and 3 take the version of the root; thread 1 splits the first leaf and stops inside `insert_key_and_child`. -/
def wit3 : List (Act Nat) := oneCall 3 (.insert 1350 7) 2 ++ oneCall 1 (.insert 13 0) 17

set_option maxRecDepth 100000 in
/-- C48 is false for the code: a key inserted long ago, by an insert that has returned, is reported absent by a lookup, because
the lookup reads an internode while another thread shifts its entries and `has_changed` ignores the lock. -/
theorem C48_present_key_missed : ∃ (l l' : List (Act Nat)) (t v i : Nat),
    (run false true init l).pc 0 = .done (.insert t v) none ∧
    (run false true init (l ++ l')).pc i = .idle ∧
    (run false true init (l ++ l' ++ [.call i (.get t)])).pc i ≠ .idle ∧
    ∃ l'', (run false true init (l ++ l' ++ [.call i (.get t)] ++ l'')).pc i = .done (.get t) none :=
  ⟨wit1, wit2, 1300, 12, 2, by decide +kernel, by decide +kernel, by decide +kernel,
    List.replicate 2 (.run 2) ++ wit3 ++ List.replicate 10 (.run 2), by decide +kernel⟩

set_option maxRecDepth 100000 in
/-- C48 is false for the code: an insert goes through the same window into the wrong leaf.  It returns normally, all other calls
return, and a lookup that then runs alone does not find the key. -/
theorem C48_insert_lost : ∃ (l l' l'' : List (Act Nat)) (t v i j : Nat),
    (run false true init l).pc i = .done (.insert t v) none ∧
    (∀ k, k < 6 → (run false true init (l ++ l')).pc k = .idle ∨ ∃ o x, (run false true init (l ++ l')).pc k = .done o x) ∧
    (∀ a, a ∈ l'' → a = .call j (.get t) ∨ a = .run j) ∧
    (run false true init (l ++ l' ++ l'')).pc j = .done (.get t) none := by
  refine ⟨wit1 ++ wit2 ++ wit3 ++ List.replicate 20 (.run 3), List.replicate 20 (.run 1), oneCall 5 (.get 1350) 20, 1350, 7, 3, 5,
    by decide +kernel, ?_, by decide +kernel, by decide +kernel⟩
  have h : ∀ k, k < 6 → rest ((run false true init (wit1 ++ wit2 ++ wit3 ++ List.replicate 20 (.run 3) ++ List.replicate 20 (.run 1))).pc k) = true := by decide +kernel
  intro k hk
  exact of_rest (h k hk)

/-! ## Failures -/

/-- C49, what can be proved: the first call to fail in an execution of the code fails because it has gone through 64 rounds of
the propagation loop.  No split panics on a missing parent, none gives up on a parent that does not contain its child, and no
exchange of the root pointer fails.  Missing: the 64 rounds, which can be used up (`C49_round_limit_reached`). -/
theorem C49_split_never_fails_partial {strict main : Bool} {σ : Nat → St V} {α : Nat → Act V} (E : Exec strict main σ α) (n : Nat)
    (h : ∀ i, ¬ Failed (σ n) i) (i : Nat) (o : Op V) (e : Err) (hf : (σ (n + 1)).pc i = .fail o e) :
    e = .rounds ∧ α n = .run i ∧ ∃ x, (σ n).pc i = .par x ∧ 64 ≤ x.rounds := by
  have I := exec_inv E n h
  have hn := E.next n
  rcases I.act (strict := strict) (α n) with ⟨j, x, h1, h2, h3, h4⟩ | g
  · by_cases c : i = j
    · subst c
      rw [← hn, hf] at h4
      injection h4 with _ h4
      exact ⟨h4, h1, x, h2, h3⟩
    · exfalso
      apply h i
      refine ⟨o, e, ?_⟩
      rw [← hf, hn, h1]
      simp only [act, Verif.Internode.upd_ne _ _ _ c]
  · exfalso
    have := g.ok i
    rw [← hn, hf] at this
    exact this

/-- C49 does not hold for the code: two threads suffice to make an insert of a 64-bit key fail.  Thread 0 has split a leaf and reads
its parent pointer; before it has locked the parent, thread 1 splits the parent by inserting keys just below the leaf; and so on
64 times (about 400 inserts of thread 1 each).  The height of the index stays below 60. -/
theorem C49_round_limit_reached : ∃ (l : List (Act Nat)) (t v : Nat),
    (∀ i o, Act.call i o ∈ l → i < 2 ∧ o.key < 2 ^ 64) ∧ (∀ i, Act.run i ∈ l → i < 2) ∧ t < 2 ^ 64 ∧
    (run false true init l).pc 0 = .fail (.insert t v) .rounds := by
  obtain ⟨h, c1, R⟩ := lim_fail
  obtain ⟨l, h1, h2⟩ := R.list
  exact ⟨l, 2 ^ 40 + 24, 2 ^ 40 + 24, fun i o hm => h1 _ hm, fun i hm => h1 _ hm, by decide, by rw [h2]; rfl⟩

/-- C49: a call runs out of rounds only if, while it was splitting, other threads created at least as many nodes as its 64 rounds
exceed the height of the tree: every round either climbs a level or is lost to a node that another thread has created since the
split began.  Thread `i` began at step `m` and has held locks ever since. -/
theorem C49_failure_needs_other_splits_partial {strict main : Bool} {σ : Nat → St V} {α : Nat → Act V} (E : Exec strict main σ α) (n : Nat)
    (h : ∀ i, ¬ Failed (σ n) i) (i : Nat) (o : Op V) (e : Err) (hf : (σ (n + 1)).pc i = .fail o e) :
    ∃ m d, n = m + 1 + d ∧ α m = .run i ∧ (∃ o r l, (σ m).pc i = .sect o r l) ∧
      (∀ k, k ≤ d → holds ((σ (m + 1 + k)).pc i) ≠ []) ∧
      64 ≤ ((σ n).heap.node (σ n).heap.top).ht + othersNew σ α i (m + 1) d := by
  obtain ⟨_, _, x, hx, hr⟩ := C49_split_never_fails_partial E n h i o e hf
  obtain ⟨m, d, s1, s2, s3, s4, s5⟩ := since E i n h (by rw [hx]; simp [holds])
  refine ⟨m, d, s1, s2, s3, s4, ?_⟩
  rw [hx] at s5
  have s5 : x.rounds ≤ ((σ n).heap.node x.l).ht + othersNew σ α i (m + 1) d := s5
  have I := exec_inv E n h
  have ok := I.ok i
  rw [hx] at ok
  have := I.H.low x.l ok.al
  omega

/-- C49: with fewer than 2^63 nodes the index has at most 22 levels, so a split fails only if other threads create at least 42
nodes while it holds its locks. -/
theorem C49_failure_needs_42_nodes_partial {strict main : Bool} {σ : Nat → St V} {α : Nat → Act V} (E : Exec strict main σ α) (n : Nat)
    (h : ∀ i, ¬ Failed (σ n) i) (hs : (σ n).heap.fresh ≤ 2 ^ 63) (i : Nat) (o : Op V) (e : Err) (hf : (σ (n + 1)).pc i = .fail o e) :
    ∃ m d, n = m + 1 + d ∧ (∀ k, k ≤ d → holds ((σ (m + 1 + k)).pc i) ≠ []) ∧ 42 ≤ othersNew σ α i (m + 1) d := by
  obtain ⟨m, d, s1, s2, s3, s4, s5⟩ := C49_failure_needs_other_splits_partial E n h i o e hf
  refine ⟨m, d, s1, s4, ?_⟩
  have hl := height_log (exec_inv E n h).H (exec_half E n h)
  have : ((σ n).heap.node (σ n).heap.top).ht - 1 < 21 := by
    apply (Nat.pow_lt_pow_iff_right (a := 8) (by decide)).1
    have : (8 : Nat) ^ 21 = 2 ^ 63 := by decide
    omega
  omega

/-- C49: no call fails in an execution in which, during every split, the nodes created by other threads and the height stay
below 64 together. -/
theorem C49_never_fails_partial {strict main : Bool} {σ : Nat → St V} {α : Nat → Act V} (E : Exec strict main σ α)
    (h : ∀ i m d, (∀ k, k ≤ d → holds ((σ (m + 1 + k)).pc i) ≠ []) →
      ((σ (m + 1 + d)).heap.node (σ (m + 1 + d)).heap.top).ht + othersNew σ α i (m + 1) d < 64) :
    ∀ n i, ¬ Failed (σ n) i
  | 0, i => by rintro ⟨o, e, q⟩; rw [E.start] at q; cases q
  | n + 1, i => by
    rintro ⟨o, e, q⟩
    obtain ⟨m, d, rfl, _, _, s4, s5⟩ := C49_failure_needs_other_splits_partial E n (C49_never_fails_partial E h n) i o e q
    have := h i m d s4
    omega

/-! ## Balance -/

/-- C51: the height of the index is at most logarithmic, to base 8, in the number of nodes, however the threads run. -/
theorem C51_height_logarithmic {strict main : Bool} {σ : Nat → St V} {α : Nat → Act V} (E : Exec strict main σ α) (n : Nat)
    (h : ∀ i, ¬ Failed (σ n) i) :
    8 ^ (((σ n).heap.node (σ n).heap.top).ht - 1) < (σ n).heap.fresh ∧
    ∀ m, 0 < m ∧ m < (σ n).heap.fresh → ((σ n).heap.node m).ht ≤ ((σ n).heap.node (σ n).heap.top).ht :=
  have I := exec_inv E n h
  ⟨height_log I.H (exec_half E n h), I.H.low⟩

/-- C51: every level of pointers leads exactly one level up or down, so a descent from a node of height `k` takes `k` steps down. -/
theorem C51_levels {strict main : Bool} {σ : Nat → St V} {α : Nat → Act V} (E : Exec strict main σ α) (n m i : Nat)
    (hm : 0 < m ∧ m < (σ n).heap.fresh) :
    (((σ n).heap.node m).arr.child i = 0 ∨
      ((σ n).heap.node (((σ n).heap.node m).arr.child i)).ht + 1 = ((σ n).heap.node m).ht) ∧
    (((σ n).heap.node m).parent = 0 ∨ ((σ n).heap.node ((σ n).heap.node m).parent).ht = ((σ n).heap.node m).ht + 1) :=
  have N := (exec_weak E n).H.node m hm
  ⟨(N.cells i).imp_right fun q => q.2, N.par.imp_right fun q => q.2⟩

/-! ## Waiting -/

/-- C50: if a step of a thread that is inside a call changes nothing, then that thread waits for a lock, and some other thread
holds locks and can move.  So there is no deadlock, in particular no cycle of splits waiting for each other.  This is so in every
execution, even after calls have failed. -/
theorem C50_no_deadlock {strict main : Bool} {σ : Nat → St V} {α : Nat → Act V} (E : Exec strict main σ α) (n : Nat)
    (i : Nat) (hi : InCall (σ n) i) (hw : act strict main (σ n) (.run i) = σ n) :
    ∃ j, j ≠ i ∧ holds ((σ n).pc j) ≠ [] ∧ act strict main (σ n) (.run j) ≠ σ n := by
  have I := exec_weak E n
  cases hp : waits (σ n).heap ((σ n).pc i) with
  | none => exact absurd hw (I.run_moves hi hp)
  | some p =>
    have ⟨hp1, hp2⟩ : Al (σ n).heap p ∧ ((σ n).heap.node p).locked = true := by
      have ok := I.ok i
      cases hc : (σ n).pc i with
      | stab o r q =>
        rw [hc] at hp ok; simp only [waits] at hp
        split at hp <;> cases hp; exact ⟨ok.2, by assumption⟩
      | look o q =>
        rw [hc] at hp ok; simp only [waits] at hp
        split at hp <;> cases hp; exact ⟨ok, by assumption⟩
      | sect o r q =>
        rw [hc] at hp ok; simp only [waits] at hp
        split at hp <;> cases hp; exact ⟨ok.2.1, by assumption⟩
      | lck c q =>
        rw [hc] at hp ok; simp only [waits] at hp
        split at hp <;> cases hp; exact ⟨ok.2.1, by assumption⟩
      | _ => rw [hc] at hp; simp [waits] at hp
    obtain ⟨j, h1, h2⟩ := I.holder_moves (σ n).heap.fresh p hp1 hp2 (Nat.le_add_left _ _)
    refine ⟨j, ?_, h1, I.run_moves (holds_inCall h1) h2⟩
    intro e; rw [e, hp] at h2; cases h2

/-- C50: a thread that holds locks releases all of them after at most 3300 steps of its own that are not waits. -/
theorem C50_locked_sections_end {strict main : Bool} {σ : Nat → St V} {α : Nat → Act V} (E : Exec strict main σ α) (i n k : Nat)
    (h : ∀ m, m ≤ k → holds ((σ (n + m)).pc i) ≠ []) : moveCount σ α i n k ≤ 3300 := by
  have := moveCount_mu E i n k h
  have := mu_le (exec_short E i n)
  omega

/-- C50: a node is locked exactly when some thread, and only one, has it among its locks: no lock is ever forgotten, not even by a
call that fails. -/
theorem C50_no_lock_forgotten {strict main : Bool} {σ : Nat → St V} {α : Nat → Act V} (E : Exec strict main σ α) (n : Nat)
    (m : Nat) (hm : 0 < m ∧ m < (σ n).heap.fresh) :
    (((σ n).heap.node m).locked = true ↔ ∃ i, m ∈ holds ((σ n).pc i)) ∧
    ∀ i j, m ∈ holds ((σ n).pc i) → m ∈ holds ((σ n).pc j) → i = j :=
  have I := exec_weak E n
  ⟨⟨I.held m hm, fun ⟨i, hi⟩ => (I.hold i m hi).2⟩, fun i j => I.excl i j m⟩

/-- C50: a call that has returned or failed holds no lock. -/
theorem C50_nothing_held_at_return (c : Pc V) (h : c = .idle ∨ (∃ o x, c = .done o x) ∨ ∃ o e, c = .fail o e) : holds c = [] := by
  rcases h with rfl | ⟨_, _, rfl⟩ | ⟨_, _, rfl⟩ <;> rfl

/-! ## The hypotheses can be met -/

/-- The execution with schedule `α`. -/
def trace (strict main : Bool) (α : Nat → Act V) : Nat → St V
  | 0 => init
  | n + 1 => act strict main (trace strict main α n) (α n)

theorem trace_exec (strict main : Bool) (α : Nat → Act V) : Exec strict main (trace strict main α) α := ⟨rfl, fun _ => rfl⟩

/-- The thread of an action. -/
def Act.thread : Act V → Nat
  | .call i _ => i
  | .run i => i

theorem trace_idle {strict main : Bool} {α : Nat → Act V} {j : Nat} (h : ∀ n, (α n).thread ≠ j) : ∀ n, (trace strict main α n).pc j = .idle
  | 0 => rfl
  | n + 1 => by
    have ih := trace_idle (strict := strict) (main := main) h n
    have hn := h n
    simp only [trace]
    cases ha : α n with
    | call i o =>
      rw [ha] at hn
      have hn : i ≠ j := hn
      simp only [act]
      split
      · simp only [Verif.Internode.upd_ne _ _ _ (Ne.symm hn)]; exact ih
      · simp only [Verif.Internode.upd_ne _ _ _ (Ne.symm hn)]; exact ih
      · exact ih
    | run i =>
      rw [ha] at hn
      have hn : i ≠ j := hn
      simp only [act, Verif.Internode.upd_ne _ _ _ (Ne.symm hn)]; exact ih

/-- Thread 0 fills the first leaf and splits it; thread 1 looks up a key, thread 2 inserts. -/
def witList : List (Act Nat) :=
  ((List.range 24).flatMap fun i => oneCall 0 (.insert (100 * (i + 1)) i) 13) ++ oneCall 2 (.insert 150 1) 3 ++ oneCall 0 (.insert 2500 24) 4 ++
    oneCall 1 (.get 100) 3

def witSched (n : Nat) : Act Nat := witList[n]?.getD (.run 0)

theorem witSched_thread (n j : Nat) (hj : 3 ≤ j) : (witSched n).thread ≠ j := by
  have h : ∀ a ∈ witList, a.thread < 3 := by decide +kernel
  unfold witSched
  cases e : witList[n]? with
  | none => simp [Act.thread]; omega
  | some a => have := h a (List.mem_of_getElem? e); simp only [Option.getD_some]; omega

set_option maxRecDepth 100000 in
/-- The hypotheses of C50 (and of C49): a leaf is being split, two threads wait for it. -/
example : ∃ (σ : Nat → St Nat) (α : Nat → Act Nat) (n : Nat), Exec false true σ α ∧ (∀ i, ¬ Failed (σ n) i) ∧
    InCall (σ n) 1 ∧ act false true (σ n) (.run 1) = σ n ∧ InCall (σ n) 2 ∧ act false true (σ n) (.run 2) = σ n ∧
    holds ((σ n).pc 0) = [1, 2] := by
  have h1 : (trace false true witSched 349).pc 1 = .stab (.get 100) 1 1 := by decide +kernel
  have h2 : (trace false true witSched 349).pc 2 = .sect (.insert 150 1) 1 1 := by decide +kernel
  have h0 : holds ((trace false true witSched 349).pc 0) = [1, 2] := by decide +kernel
  have hl : ((trace false true witSched 349).heap.node 1).locked = true := by decide +kernel
  have hs : ∀ i, step false true (trace false true witSched 349).heap ((trace false true witSched 349).pc i) =
      ((trace false true witSched 349).heap, (trace false true witSched 349).pc i) →
      act false true (trace false true witSched 349) (.run i) = trace false true witSched 349 := by
    intro i e
    simp only [act, e]
    have : Verif.Internode.upd (trace false true witSched 349).pc i ((trace false true witSched 349).pc i) = (trace false true witSched 349).pc := by
      funext j; unfold Verif.Internode.upd; split
      · rename_i h; rw [h]
      · rfl
    rw [this]
  refine ⟨_, _, 349, trace_exec false true witSched, ?_, ?_, hs 1 ?_, ?_, hs 2 ?_, h0⟩
  · rintro i ⟨o, e, h⟩
    by_cases c : 3 ≤ i
    · rw [trace_idle (fun n => witSched_thread n i c)] at h; cases h
    · have : i = 0 ∨ i = 1 ∨ i = 2 := by omega
      rcases this with g | g | g
      · rw [← g] at h0; rw [h] at h0; simp [holds] at h0
      · rw [← g, h] at h1; cases h1
      · rw [← g, h] at h2; cases h2
  · exact ⟨by simp [h1], by simp [h1], by simp [h1]⟩
  · rw [h1]; simp only [step, hl, if_true]
  · exact ⟨by simp [h2], by simp [h2], by simp [h2]⟩
  · rw [h2]; simp only [step, hl, if_true]

end Verif.Index
