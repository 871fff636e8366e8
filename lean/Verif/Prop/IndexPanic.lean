import Verif.Prop.IndexOrder
import Verif.Proof.IndexOrphan
import Verif.Proof.IndexAfter
/-!
# What an insert that panics leaves behind: C77

Statements about the machine of `Model/IndexRace.lean` (one layer, keys with different slices, any number of threads).
`run false true` is the code.
-/
namespace Verif.Index
variable {V : Type}

/-- C77 does not hold for the code: a panic of an insert makes later inserts panic, also when nothing runs beside them.  After `l` the
insert of thread 0 has panicked because it has used up its 64 rounds.  From then on only thread 1 runs.  It calls inserts of 64-bit keys one after
the other, and the last of them panics because the leaf it splits has no parent: the leaf is the one thread 0 has created and not entered
in the index. -/
theorem C77_panic_repeats : ∃ (l l' : List (Act Nat)) (t v t' v' : Nat),
    (∀ i o, Act.call i o ∈ l → i < 2 ∧ o.key < 2 ^ 64) ∧ (∀ i, Act.run i ∈ l → i < 2) ∧
    (run false true init l).pc 0 = .fail (.insert t v) .rounds ∧
    ((run false true init l).pc 1 = .idle ∨ ∃ o x, (run false true init l).pc 1 = .done o x) ∧
    (∀ i o, Act.call i o ∈ l' → i = 1 ∧ o.key < 2 ^ 64) ∧ (∀ i, Act.run i ∈ l' → i = 1) ∧
    (run false true init (l ++ l')).pc 1 = .fail (.insert t' v') .nullParent := by
  obtain ⟨h, c1, p, d, R, hc, O, hm⟩ := lim_orphan
  obtain ⟨l, h1, h2⟩ := R.list
  obtain ⟨t, h', l', g1, g2⟩ := Orphan.fills 7 12 O (by omega) (by decide) hc (Go.refl _)
  refine ⟨l, l', _, _, t, 7, fun i o hm => h1 _ hm, fun i hm => h1 _ hm, by rw [h2]; rfl, by rw [h2]; exact hc, fun i o hm => g1 _ hm,
    fun i hm => g1 _ hm, ?_⟩
  have : run false true init (l ++ l') = run false true (run false true init l) l' := by simp [run, List.foldl_append]
  rw [this, h2, g2]
  rfl

/-- C77, what can be proved: the first insert of an execution to panic takes no lock with it and changes nothing that is stored.  Every node
that is locked afterwards is held by another thread inside its call; the entries, bounds and links of the leaves and the keys and children of the internodes
are as before, and so are the root and the other threads.  Missing: later inserts can panic (`C77_panic_repeats`). -/
theorem C77_panic_keeps_tree_partial {strict main : Bool} {σ : Nat → St V} {α : Nat → Act V} (E : Exec strict main σ α) (n : Nat)
    (h : ∀ i, ¬ Failed (σ n) i) (i : Nat) (o : Op V) (e : Err) (hf : (σ (n + 1)).pc i = .fail o e) :
    (∀ m, 0 < m ∧ m < (σ (n + 1)).heap.fresh → ((σ (n + 1)).heap.node m).locked = true →
      ∃ j, j ≠ i ∧ m ∈ holds ((σ (n + 1)).pc j)) ∧
    (∀ m, ((σ (n + 1)).heap.node m).ents = ((σ n).heap.node m).ents ∧ ((σ (n + 1)).heap.node m).lo = ((σ n).heap.node m).lo ∧
      ((σ (n + 1)).heap.node m).next = ((σ n).heap.node m).next ∧ ((σ (n + 1)).heap.node m).arr = ((σ n).heap.node m).arr) ∧
    (σ (n + 1)).heap.root = (σ n).heap.root ∧ ∀ j, j ≠ i → (σ (n + 1)).pc j = (σ n).pc j := by
  obtain ⟨_, ha, x, hx, hr⟩ := C49_split_never_fails_partial E n h i o e hf
  have I := exec_inv E n h
  have ok := I.ok i
  rw [hx] at ok
  have hs : step strict main (σ n).heap (.par x) = (((σ n).heap.mod x.y Node.unlock).mod x.l Node.unlock, .fail x.o .rounds) := by
    simp only [step]
    rw [if_pos (by simp only [maxRounds]; exact hr)]
  have hn := E.next n
  rw [ha] at hn
  simp only [act, hx, hs] at hn
  rw [hn]
  refine ⟨fun m hm hl => ?_, fun m => ?_, rfl, fun j hj => ?_⟩
  · simp only [mod_fresh] at hm
    have hm1 : m ≠ x.l := by rintro rfl; simp [mod_node] at hl
    have hm2 : m ≠ x.y := by rintro rfl; simp [mod_node, hm1] at hl
    simp only [mod_node, if_neg hm1, if_neg hm2] at hl
    obtain ⟨j, hj⟩ := I.held m hm hl
    have : j ≠ i := by
      rintro rfl
      rw [hx] at hj
      simp [holds] at hj
      omega
    exact ⟨j, this, by simp only [Verif.Internode.upd_ne _ _ _ this]; exact hj⟩
  · simp only [mod_node]
    by_cases c1 : m = x.l
    · subst c1
      by_cases c2 : x.l = x.y
      · simp [← c2]
      · simp [c2]
    · by_cases c2 : m = x.y
      · subst c2; simp [c1]
      · simp [c1, c2]
  · simp only [Verif.Internode.upd_ne _ _ _ hj]

/-- C77 for lookups: they survive the panic.  An insert has panicked at step `n` while the other threads were at rest, as the first in the
execution, and no insert is called any more.  Then every later lookup whose thread keeps running returns, and its answer is what
the map held before the panic.  Up to the panic no descent has found a locked internode unchanged (finding 9).
Missing: later inserts can panic (`C77_panic_repeats`). -/
theorem C77_lookups_go_on_partial {strict main : Bool} {σ : Nat → St V} {α : Nat → Act V} (E : Exec strict main σ α) {n : Nat}
    (C : NoLockedPass strict σ α n) (h : ∀ i, ¬ Failed (σ n) i) {i : Nat} {o : Op V} {e : Err} (hf : (σ (n + 1)).pc i = .fail o e)
    (hq : ∀ j, j ≠ i → (σ n).pc j = .idle ∨ ∃ a b, (σ n).pc j = .done a b)
    (hi : ∀ m, n < m → ∀ j t v, α m ≠ .call j (.insert t v)) {j t n0 : Nat} (hn : n < n0)
    (hj : (σ n0).pc j = .idle ∨ ∃ a b, (σ n0).pc j = .done a b) (hc : α n0 = .call j (.get t)) (hr : ∀ m, ∃ k, m ≤ k ∧ α k = .run j) :
    ∃ k x, CallRet σ α j (.get t) x n0 k ∧ x = mapAt σ α n t := by
  obtain ⟨_, ha, x, hx, hrd⟩ := C49_split_never_fails_partial E n h i o e hf
  have F := exec_full E C.clean h n (Nat.le_refl _)
  have hs : step strict main (σ n).heap (.par x) = (((σ n).heap.mod x.y Node.unlock).mod x.l Node.unlock, .fail x.o .rounds) := by
    simp only [step]
    rw [if_pos (by simp only [maxRounds]; exact hrd)]
  have hs1 : σ (n + 1) = ⟨((σ n).heap.mod x.y Node.unlock).mod x.l Node.unlock, Verif.Internode.upd (σ n).pc i (.fail x.o .rounds)⟩ := by
    rw [E.next n, ha]; simp only [act, hx, hs]
  obtain ⟨K, B⟩ := Calmed.of_full F hx (fun j hj => by rcases hq j hj with g | ⟨a, b, g⟩ <;> rw [g] <;> rfl)
  have K' : Calmed (σ (n + 1)).heap := by rw [hs1]; exact K
  have S : ∀ j, Sees (σ (n + 1)).heap ((σ (n + 1)).pc j) := by
    intro j
    rw [hs1]
    by_cases c : j = i
    · subst c; simp only [Verif.Internode.upd_same]; trivial
    · simp only [Verif.Internode.upd_ne _ _ _ c]
      rcases hq j c with g | ⟨a, b, g⟩ <;> rw [g] <;> trivial
  have hcl : (σ (n0 + 1)).pc j = .climb (.get t) (σ n0).heap.root := by
    rw [E.next n0, hc]
    rcases act_call (strict := strict) (main := main) (σ n0) j (.get t) with ⟨_, a, b⟩ | ⟨g, _⟩
    · rcases hj with g | ⟨x, y, g⟩
      · exact absurd g a
      · exact absurd g (b x y)
    · rw [g]; simp only [Verif.Internode.upd_same]
  obtain ⟨k, y, k1, k2, k3, k4, k5⟩ := sees_returns E K' S (fun m hm => hi m hm) hr (t := t) _ (n0 + 1) (by omega) (by rw [hcl]; rfl)
    (Nat.lt_succ_self _)
  refine ⟨k, y, ⟨by omega, hj, hc, fun m m1 m2 => ?_, k2, k4⟩, ?_⟩
  · have f := k3 m m1 m2
    exact ⟨fun g => by rw [g] at f; exact f, fun a b g => by rw [g] at f; exact f, fun a b g => by rw [g] at f; exact f⟩
  · have b : ∀ v, mapAt σ α n t = some v ↔ y = some v := fun v => by
      rw [bound_map E C.clean h n (Nat.le_refl _) t v, k5 v, hs1, B t v]
    cases hm : mapAt σ α n t with
    | none =>
      cases y with
      | none => rfl
      | some v => have := (b v).2 rfl; rw [hm] at this; cases this
    | some v => exact (b v).1 hm

/-! ## The hypotheses can be met -/

/-- A list of actions as the beginning of an execution. -/
theorem trace_run {strict main : Bool} (l : List (Act V)) (a : Act V) : ∀ k, k ≤ l.length →
    trace strict main (fun n => l.getD n a) k = run strict main init (l.take k)
  | 0, _ => by simp [trace, run]
  | k + 1, hk => by
    have hk' : k < l.length := by omega
    rw [trace, trace_run l a k (by omega), List.take_succ_eq_append_getElem hk', run, run, List.foldl_append]
    simp [List.getD, List.getElem?_eq_getElem hk']

theorem passL_get (a : Act V) : ∀ (l : List (Act V)) (s : St V), passL s l = true → ∀ k, k < l.length → passes (run false true s (l.take k)) (l.getD k a) = true
  | [], _, _, k, hk => by simp at hk
  | b :: l, s, h, 0, _ => by simp only [passL, Bool.and_eq_true] at h; simpa [run] using h.1
  | b :: l, s, h, k + 1, hk => by
    simp only [passL, Bool.and_eq_true] at h
    have := passL_get a l _ h.2 k (by simpa using hk)
    simpa [run] using this

/-- The hypotheses of `C77_panic_keeps_tree_partial` are met: there is an execution of the code in which a first insert panics. -/
theorem C77_witness : ∃ (σ : Nat → St Nat) (α : Nat → Act Nat) (n : Nat), Exec false true σ α ∧ (∀ i, ¬ Failed (σ n) i) ∧
    ∃ o e, (σ (n + 1)).pc 0 = .fail o e := by
  obtain ⟨h, c, c1, _, _, _, _, _, _, R, hc, _, _, _, h64, ho, _, _⟩ := lim_last
  obtain ⟨l, _, h2⟩ := R.list
  have e : trace false true (fun n => l.getD n (.run 0)) l.length = two (.par c) h c1 := by
    rw [trace_run l _ _ (Nat.le_refl _), List.take_length, h2]
  refine ⟨_, fun n => l.getD n (.run 0), l.length, trace_exec false true _, ?_, c.o, .rounds, ?_⟩
  · rintro i ⟨o, x, hf⟩
    rw [e] at hf
    simp only [two, Verif.Internode.upd] at hf
    split at hf
    · rcases hc with rfl | ⟨_, _, rfl⟩ <;> cases hf
    · split at hf <;> cases hf
  · rw [trace, e]
    simp only [List.getD, List.getElem?_eq_none (Nat.le_refl _), Option.getD_none, act]
    have hs : step false true h (.par c) = ((h.mod c.y Node.unlock).mod c.l Node.unlock, .fail c.o .rounds) := by
      simp only [step]
      rw [if_pos (by simp only [maxRounds]; exact h64)]
    simp only [two]
    simp [hs, Verif.Internode.upd]

/-- The hypotheses of `C77_lookups_go_on_partial` are met, for an insert with key and value `2 ^ 40 + 24` that panics and a lookup of a key that
thread 0 inserted before: thread 1 calls the lookup and runs. -/
theorem C77_witness_lookup : ∃ (σ : Nat → St Nat) (α : Nat → Act Nat) (n : Nat), Exec false true σ α ∧ NoLockedPass false σ α n ∧
    (∀ i, ¬ Failed (σ n) i) ∧ (∃ e, (σ (n + 1)).pc 0 = .fail (.insert (2 ^ 40 + 24) (2 ^ 40 + 24)) e) ∧
    (∀ j, j ≠ 0 → (σ n).pc j = .idle ∨ ∃ a b, (σ n).pc j = .done a b) ∧
    (∀ m, n < m → ∀ j t v, α m ≠ .call j (.insert t v)) ∧
    ((σ (n + 1)).pc 1 = .idle ∨ ∃ a b, (σ (n + 1)).pc 1 = .done a b) ∧ α (n + 1) = .call 1 (.get (2 ^ 40)) ∧
    ∀ m, ∃ k, m ≤ k ∧ α k = .run 1 := by
  obtain ⟨h, c, c1, _, _, _, _, _, _, R, hc, _, _, _, h64, ho, _, _⟩ := lim_last
  obtain ⟨l, _, h2, h3⟩ := R.list'
  have hl0 : (l ++ [Act.run 0, Act.call 1 (.get (2 ^ 40))]).take l.length = l := by simp
  let α : Nat → Act Nat := fun n => (l ++ [Act.run 0, Act.call 1 (.get (2 ^ 40))]).getD n (.run 1)
  have e : trace false true α l.length = two (.par c) h c1 := by
    rw [trace_run _ _ _ (by simp), hl0, h2]
  have a0 : α l.length = .run 0 := by simp [α, List.getD]
  have a1 : α (l.length + 1) = .call 1 (.get (2 ^ 40)) := by simp [α, List.getD]
  have a2 : ∀ m, l.length + 1 < m → α m = .run 1 := by
    intro m hm
    simp only [α, List.getD]
    rw [List.getElem?_eq_none (by simp; omega)]; rfl
  have e1 : trace false true α (l.length + 1) = two (.fail c.o .rounds) ((h.mod c.y Node.unlock).mod c.l Node.unlock) c1 := by
    have hs : step false true h (.par c) = ((h.mod c.y Node.unlock).mod c.l Node.unlock, .fail c.o .rounds) := by
      simp only [step]
      rw [if_pos (by simp only [maxRounds]; exact h64)]
    rw [trace, e, a0]
    simp only [act, two_pc0, two_heap, hs]
    simp only [two, St.mk.injEq, true_and]
    funext i
    simp only [Verif.Internode.upd]
    by_cases i0 : i = 0
    · subst i0; simp
    · simp [i0]
  refine ⟨trace false true α, α, l.length, trace_exec false true _, ?_, ?_, ⟨.rounds, ?_⟩, ?_, ?_, ?_, a1, ?_⟩
  · intro n hn i o r p w x ha hp _
    have := passL_get (.run 1) (l ++ [Act.run 0, Act.call 1 (.get (2 ^ 40))]) init (by
      rw [passL_append, h3, h2]
      simp [passL, passes]) n (by simp; omega)
    rw [← trace_run _ _ _ (by simp; omega)] at this
    change passes (trace false true α n) (α n) = true at this
    rw [ha] at this
    simp only [passes, hp] at this
    simpa using this
  · rintro i ⟨o, x, hf⟩
    rw [e] at hf
    simp only [two, Verif.Internode.upd] at hf
    split at hf
    · rcases hc with rfl | ⟨_, _, rfl⟩ <;> cases hf
    · split at hf <;> cases hf
  · rw [e1, two_pc0, ho]
  · intro j hj
    rw [e]
    by_cases j1 : j = 1
    · subst j1; exact hc
    · rw [two_pc2 _ _ _ hj j1]; exact .inl rfl
  · intro m hm j t v g
    by_cases q : m = l.length + 1
    · rw [q, a1] at g; cases g
    · rw [a2 m (by omega)] at g; cases g
  · rw [e1]; exact hc
  · intro m
    exact ⟨m + (l.length + 2), by omega, a2 _ (by omega)⟩

end Verif.Index
