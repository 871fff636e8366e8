import Verif.Proof.IndexOrder5
import Verif.Prop.IndexRace
set_option linter.unusedVariables false
/-!
# Lookups and inserts while a split updates the index: what holds of C48

The code violates C48 (`C48_present_key_missed`, `C48_insert_lost` in `Prop/IndexRace.lean`), because `has_changed` does not look
at the lock.  Here: that is the only reason.  As long as no descent finds an internode unchanged while the internode is locked,
every call takes effect at one moment between its call and its return.
-/
namespace Verif.Index
open Verif.Internode
variable {V : Type}

/-! ## Specification -/

/-- The map after a thread has gone from `c` to `c'`: an insert that has not returned and now returns puts its value there. -/
def put1 (c c' : Pc V) (M : Nat → Option V) : Nat → Option V :=
  match c, c' with
  | .done _ _, _ => M
  | _, .done (.insert t v) _ => fun t' => if t' = t then some v else M t'
  | _, _ => M

/-- The map that the calls have built up after `n` steps: each insert takes effect at the step at which it returns. -/
def mapAt (σ : Nat → St V) (α : Nat → Act V) : Nat → Nat → Option V
  | 0 => fun _ => none
  | n + 1 =>
    match α n with
    | .call _ _ => mapAt σ α n
    | .run i => put1 ((σ n).pc i) ((σ (n + 1)).pc i) (mapAt σ α n)

/-- In the first `N` steps no descent finds an internode unchanged (generic.rs:916) while it is locked. -/
def NoLockedPass (strict : Bool) (σ : Nat → St V) (α : Nat → Act V) (N : Nat) : Prop :=
  ∀ n, n < N → ∀ i o r p w x, α n = .run i → (σ n).pc i = .chk o r p w x →
    changed strict ((σ n).heap.node p) w = false → ((σ n).heap.node p).locked = false

/-- Thread `i` calls `o` at step `n0` and the call returns `x` at step `n`. -/
structure CallRet (σ : Nat → St V) (α : Nat → Act V) (i : Nat) (o : Op V) (x : Option V) (n0 n : Nat) : Prop where
  lt : n0 < n
  free : (σ n0).pc i = .idle ∨ ∃ a b, (σ n0).pc i = .done a b
  call : α n0 = .call i o
  during : ∀ m, n0 < m → m ≤ n → InCall (σ m) i
  run : α n = .run i
  ret : (σ (n + 1)).pc i = .done o x

/-! ## Theorems -/

theorem put1_ret {c c' : Pc V} {M : Nat → Option V} {t : Nat} {v : V} {x : Option V} (h : ∀ a b, c ≠ .done a b)
    (h' : c' = .done (.insert t v) x) : put1 c c' M = fun t' => if t' = t then some v else M t' := by
  subst h'
  cases c with
  | done a b => exact absurd rfl (h a b)
  | _ => rfl

theorem put1_other {c c' : Pc V} {M : Nat → Option V} (h : (∃ a b, c = .done a b) ∨ ∀ t v x, c' ≠ .done (.insert t v) x) : put1 c c' M = M := by
  unfold put1
  split
  · rfl
  · rename_i g
    rcases h with ⟨a, b, h⟩ | h
    · exact absurd h (g a b)
    · exact absurd rfl (h _ _ _)
  · rfl

theorem NoLockedPass.clean {strict : Bool} {σ : Nat → St V} {α : Nat → Act V} {N : Nat} (C : NoLockedPass strict σ α N) : Clean strict σ α N :=
  fun n i hn ha o r p w x hp => C n hn i o r p w x ha hp

theorem bound_map {strict main : Bool} {σ : Nat → St V} {α : Nat → Act V} {N : Nat} (E : Exec strict main σ α) (C : Clean strict σ α N)
    (h : ∀ j, ¬ Failed (σ N) j) : ∀ n, n ≤ N → ∀ t v, mapAt σ α n t = some v ↔ Bound (σ n).heap t v
  | 0, _, t, v => by
    constructor
    · intro e; cases e
    · rintro ⟨l, h1, h2, h3⟩; rw [E.start] at h3; simp [init] at h3
  | n + 1, hn, t, v => by
    have ih := bound_map E C h n (by omega)
    rcases exec_eff E C h n (by omega) with ⟨i, t0, v0, x, h1, h2, h3, h4, h5⟩ | ⟨h1, h2⟩
    · rw [h5 t v, mapAt]
      simp only [h1, put1_ret h2.2.1 h3]
      split
      · constructor
        · intro e; cases e; rfl
        · intro e; rw [e]
      · exact ih t v
    · rw [h1 t v, ← ih t v, mapAt]
      have : (match α n with
        | .call _ _ => mapAt σ α n
        | .run i => put1 ((σ n).pc i) ((σ (n + 1)).pc i) (mapAt σ α n)) = mapAt σ α n := by
        split
        · rfl
        · rename_i i _
          apply put1_other
          by_cases c : ∃ t v x, (σ (n + 1)).pc i = .done (.insert t v) x
          · obtain ⟨t, v, x, c⟩ := c; exact .inl ⟨_, _, h2 _ _ _ _ c⟩
          · exact .inr (fun t v x g => c ⟨t, v, x, g⟩)
      rw [this]

/-- C48 for `get`, under the condition that no descent finds a locked internode unchanged: the answer is what the map held for
the key at one moment between the call and the return.  Missing: the code does not ensure the condition. -/
theorem C48_get_partial {strict main : Bool} {σ : Nat → St V} {α : Nat → Act V} (E : Exec strict main σ α) {i t n0 n : Nat} {x : Option V}
    (C : NoLockedPass strict σ α (n + 1)) (h : ∀ j, ¬ Failed (σ (n + 1)) j) (R : CallRet σ α i (.get t) x n0 n) :
    ∃ m, n0 < m ∧ m ≤ n ∧ x = mapAt σ α m t := by
  have H := hist E C.clean h R.call R.free (n + 1) (by have := R.lt; omega) (Nat.le_refl _) (fun k h1 h2 => R.during k h1 (by omega))
  rw [R.ret] at H
  obtain ⟨_, m, h1, h2, h3⟩ := H
  refine ⟨m, h1, by omega, ?_⟩
  cases hx : mapAt σ α m t with
  | none =>
    cases x with
    | none => rfl
    | some v =>
      have := (bound_map E C.clean h m (by omega) t v).2 ((h3 v).1 rfl)
      rw [hx] at this; cases this
  | some v => exact (h3 v).2 ((bound_map E C.clean h m (by omega) t v).1 hx)

/-- C48 for `insert`, under the same condition: it reports what the map held for the key just before its last step, and by the
definition of `mapAt` puts its value there in that step. -/
theorem C48_insert_partial {strict main : Bool} {σ : Nat → St V} {α : Nat → Act V} (E : Exec strict main σ α) {i t n0 n : Nat} {v : V} {x : Option V}
    (C : NoLockedPass strict σ α (n + 1)) (h : ∀ j, ¬ Failed (σ (n + 1)) j) (R : CallRet σ α i (.insert t v) x n0 n) :
    x = mapAt σ α n t ∧ ∀ t', mapAt σ α (n + 1) t' = if t' = t then some v else mapAt σ α n t' := by
  have hin := R.during n R.lt (Nat.le_refl _)
  constructor
  · rcases exec_eff E C.clean h n (by omega) with ⟨j, t0, v0, y, h1, h2, h3, h4, h5⟩ | ⟨h1, h2⟩
    · have e : j = i := by rw [R.run] at h1; cases h1; rfl
      subst e
      rw [R.ret] at h3
      cases h3
      cases hx : mapAt σ α n t with
      | none =>
        cases x with
        | none => rfl
        | some w =>
          have := (bound_map E C.clean h n (by omega) t w).2 ((h4 w).1 rfl)
          rw [hx] at this; cases this
      | some w => exact (h4 w).2 ((bound_map E C.clean h n (by omega) t w).1 hx)
    · exact absurd (h2 i t v x R.ret) (hin.2.1 _ _)
  · intro t'
    rw [mapAt]
    simp only [R.run, put1_ret hin.2.1 R.ret]

theorem put1_some {c c' : Pc V} {M : Nat → Option V} {t : Nat} (h : M t ≠ none) : put1 c c' M t ≠ none := by
  unfold put1
  split
  · exact h
  · simp only; split
    · nofun
    · exact h
  · exact h

theorem mapAt_some {σ : Nat → St V} {α : Nat → Act V} {n t : Nat} (h : mapAt σ α n t ≠ none) : ∀ d, mapAt σ α (n + d) t ≠ none
  | 0 => h
  | d + 1 => by
    have ih := mapAt_some h d
    rw [← Nat.add_assoc, mapAt]
    cases α (n + d) with
    | call i o => exact ih
    | run i => exact put1_some ih

/-- C48, under the same condition: a key whose insert returned before the lookup was called is found. -/
theorem C48_present_key_found_partial {strict main : Bool} {σ : Nat → St V} {α : Nat → Act V} (E : Exec strict main σ α)
    {i j t n0 n m0 m : Nat} {v : V} {x y : Option V} (C : NoLockedPass strict σ α (n + 1)) (h : ∀ j, ¬ Failed (σ (n + 1)) j)
    (R : CallRet σ α i (.get t) x n0 n) (R' : CallRet σ α j (.insert t v) y m0 m) (hm : m < n0) : x ≠ none := by
  obtain ⟨k, h1, h2, h3⟩ := C48_get_partial E C h R
  have hb : m + 1 ≤ n + 1 := by have := R.lt; omega
  have := (C48_insert_partial E (fun q hq => C q (by omega)) (not_failed E h hb) R').2 t
  rw [if_pos rfl] at this
  have g := mapAt_some (n := m + 1) (t := t) (σ := σ) (α := α) (by rw [this]; nofun) (k - (m + 1))
  rw [show m + 1 + (k - (m + 1)) = k by omega] at g
  rw [h3]; exact g

/-- With a `has_changed` that also looks at the lock (`strict`), the condition holds in every execution. -/
theorem noLockedPass_strict (σ : Nat → St V) (α : Nat → Act V) (N : Nat) : NoLockedPass true σ α N :=
  fun n _ i o r p w x _ hp hc => calm_strict (σ n) i o r p w x hp hc

/-- C48 for the repaired code: if `has_changed` looked at the lock, then the answer of every `get` would be what the map held at one
moment of the call. -/
theorem C48_get_repaired {main : Bool} {σ : Nat → St V} {α : Nat → Act V} (E : Exec true main σ α) {i t n0 n : Nat} {x : Option V}
    (h : ∀ j, ¬ Failed (σ (n + 1)) j) (R : CallRet σ α i (.get t) x n0 n) : ∃ m, n0 < m ∧ m ≤ n ∧ x = mapAt σ α m t :=
  C48_get_partial E (noLockedPass_strict σ α _) h R

/-- C48 for the repaired code: every `insert` reports the previous value. -/
theorem C48_insert_repaired {main : Bool} {σ : Nat → St V} {α : Nat → Act V} (E : Exec true main σ α) {i t n0 n : Nat} {v : V} {x : Option V}
    (h : ∀ j, ¬ Failed (σ (n + 1)) j) (R : CallRet σ α i (.insert t v) x n0 n) : x = mapAt σ α n t :=
  (C48_insert_partial E (noLockedPass_strict σ α _) h R).1

/-- If no call runs while another thread holds a lock, the condition holds in every execution of the code. -/
theorem noLockedPass_apart {strict main : Bool} {σ : Nat → St V} {α : Nat → Act V} (E : Exec strict main σ α) (N : Nat) (h : ∀ j, ¬ Failed (σ N) j)
    (hs : ∀ n, n < N → ∀ i j, i ≠ j → InCall (σ n) i → holds ((σ n).pc j) = []) : NoLockedPass strict σ α N := by
  intro n hn i o r p w x ha hp hc
  have I := exec_inv E n (not_failed E h (by omega))
  have ok := I.ok i
  rw [hp] at ok
  cases hl : ((σ n).heap.node p).locked with
  | false => rfl
  | true =>
    obtain ⟨j, hj⟩ := I.held p ok.2.1 hl
    have hi : InCall (σ n) i := ⟨by rw [hp]; nofun, by rw [hp]; nofun, by rw [hp]; nofun⟩
    by_cases c : i = j
    · subst c; rw [hp] at hj; simp [holds] at hj
    · rw [hs n hn i j c hi] at hj; cases hj

/-- C48 for the code when calls do not overlap: a `get` returns the value of the last insert of its key. -/
theorem C48_get_alone_partial {main : Bool} {σ : Nat → St V} {α : Nat → Act V} (E : Exec false main σ α) {i t n0 n : Nat} {x : Option V}
    (h : ∀ j, ¬ Failed (σ (n + 1)) j) (hs : ∀ m, m < n + 1 → ∀ i j, InCall (σ m) i → InCall (σ m) j → i = j)
    (R : CallRet σ α i (.get t) x n0 n) : x = mapAt σ α n0 t := by
  have C : NoLockedPass false σ α (n + 1) := by
    refine noLockedPass_apart E _ h (fun m hm i j hij hi => ?_)
    rcases hh : holds ((σ m).pc j) with _ | ⟨a, b⟩
    · rfl
    · exact absurd (hs m hm i j hi (holds_inCall (by rw [hh]; nofun))) hij
  obtain ⟨m, h1, h2, h3⟩ := C48_get_partial E C h R
  have const : ∀ d, n0 + 1 + d ≤ n → mapAt σ α (n0 + 1 + d) t = mapAt σ α n0 t := by
    intro d
    induction d with
    | zero =>
      intro _
      show mapAt σ α (n0 + 1) t = _
      rw [mapAt]; simp only [R.call]
    | succ d ih =>
      intro hd
      rw [← ih (by omega), ← Nat.add_assoc, mapAt]
      cases ha : α (n0 + 1 + d) with
      | call j o => rfl
      | run j =>
        simp only
        have hin := R.during (n0 + 1 + d) (by omega) (by omega)
        have hin' := R.during (n0 + 1 + d + 1) (by omega) (by omega)
        have hn := E.next (n0 + 1 + d)
        rw [ha] at hn
        refine congrFun (put1_other ?_) t
        by_cases c : j = i
        · subst c; exact .inr (fun t v x g => hin'.2.1 _ _ g)
        · have hj : ¬ InCall (σ (n0 + 1 + d)) j := fun q => c (hs _ (by omega) _ _ q hin)
          have hf := not_failed E h (m := n0 + 1 + d) (by omega) j
          cases hp : (σ (n0 + 1 + d)).pc j with
          | idle => right; intro t v x g; rw [hn] at g; simp only [act, upd_same, hp, step] at g; cases g
          | done a b => exact .inl ⟨_, _, rfl⟩
          | fail a b => exact absurd ⟨a, b, hp⟩ hf
          | _ => exact absurd ⟨by rw [hp]; nofun, by rw [hp]; nofun, by rw [hp]; nofun⟩ hj
  have := const (m - (n0 + 1)) (by omega)
  rw [show n0 + 1 + (m - (n0 + 1)) = m by omega] at this
  rw [h3, this]

/-! ## The hypotheses can be met -/

/-- `P` holds at every step of a run. -/
def allRun (P : St Nat → Act Nat → Bool) (strict main : Bool) : St Nat → List (Act Nat) → Bool
  | _, [] => true
  | s, a :: l => P s a && allRun P strict main (act strict main s a) l

theorem allRun_trace {P : St Nat → Act Nat → Bool} {strict main : Bool} {α : Nat → Act Nat} : ∀ (l : List (Act Nat)) (k : Nat),
    (∀ j, j < l.length → l[j]? = some (α (k + j))) → allRun P strict main (trace strict main α k) l = true →
    ∀ j, j < l.length → P (trace strict main α (k + j)) (α (k + j)) = true
  | [], _, _, _, j, hj => by simp at hj
  | a :: l, k, hl, h, j, hj => by
    have e : a = α k := by have := hl 0 (by simp); simpa using this
    simp only [allRun, Bool.and_eq_true] at h
    cases j with
    | zero => have := h.1; rw [e] at this; exact this
    | succ j =>
      have := allRun_trace l (k + 1) (fun i hi => by
        have := hl (i + 1) (by simp only [List.length_cons]; omega)
        rw [List.getElem?_cons_succ] at this
        rw [this]; congr 2; omega) (by rw [trace, ← e]; exact h.2) j (by simp only [List.length_cons] at hj; omega)
      rw [show k + 1 + j = k + (j + 1) by omega] at this
      exact this

/-- The check at one step: no descent passes at a locked node. -/
def goodStep (s : St Nat) : Act Nat → Bool
  | .run i =>
    match s.pc i with
    | .chk _ _ p w _ => changed false (s.heap.node p) w || !(s.heap.node p).locked
    | _ => true
  | .call _ _ => true

/-- Whether a thread is inside a call. -/
def inside : Pc Nat → Bool
  | .idle => false
  | .done _ _ => false
  | .fail _ _ => false
  | _ => true

theorem of_inside {s : St Nat} {i : Nat} (h : inside (s.pc i) = true) : InCall s i := by
  refine ⟨?_, ?_, ?_⟩
  · intro e; rw [e] at h; cases h
  · intro o x e; rw [e] at h; cases h
  · intro o x e; rw [e] at h; cases h

/-- While thread 0 splits the only leaf and makes a root above it, thread 1 looks up a key and thread 2 inserts one. -/
def witList2 : List (Act Nat) := witList ++ List.replicate 12 (.run 0) ++ List.replicate 12 (.run 2) ++ List.replicate 20 (.run 1)

def witSched2 (n : Nat) : Act Nat := witList2[n]?.getD (.run 0)

theorem witSched2_thread (n j : Nat) (hj : 3 ≤ j) : (witSched2 n).thread ≠ j := by
  have h : ∀ a ∈ witList2, a.thread < 3 := by decide +kernel
  unfold witSched2
  cases e : witList2[n]? with
  | none => simp [Act.thread]; omega
  | some a => have := h a (List.mem_of_getElem? e); simp only [Option.getD_some]; omega

theorem witSched2_get (k j : Nat) (h : k + j < witList2.length) : (witList2.drop k)[j]? = some (witSched2 (k + j)) := by
  unfold witSched2
  rw [List.getElem?_drop, List.getElem?_eq_getElem h]; rfl

set_option maxRecDepth 100000 in
theorem witSched2_clean : NoLockedPass false (trace false true witSched2) witSched2 375 := by
  have hl : witList2.length = 393 := by decide +kernel
  have h : allRun goodStep false true (trace false true witSched2 0) witList2 = true := by decide +kernel
  have H := allRun_trace witList2 0 (fun j hj => witSched2_get 0 j (by omega)) h
  intro n hn i o r p w x ha hp hc
  have := H n (by omega)
  rw [Nat.zero_add, ha] at this
  simp only [goodStep, hp, hc, Bool.false_or] at this
  simpa using this

set_option maxRecDepth 100000 in
theorem witSched2_ok (i : Nat) : ¬ Failed (trace false true witSched2 375) i := by
  rintro ⟨o, e, h⟩
  by_cases c : 3 ≤ i
  · rw [trace_idle (fun n => witSched2_thread n i c)] at h; cases h
  · have h' : rest ((trace false true witSched2 375).pc 0) = true ∧ rest ((trace false true witSched2 375).pc 1) = true ∧
        rest ((trace false true witSched2 375).pc 2) = true := by decide +kernel
    have : i = 0 ∨ i = 1 ∨ i = 2 := by omega
    rcases this with g | g | g <;> subst g <;> rw [h] at h' <;> simp [rest] at h'

set_option maxRecDepth 100000 in
/-- The hypotheses of `C48_get_partial`: a lookup that runs from step 345 to step 374, while the root is split. -/
example : ∃ (σ : Nat → St Nat) (α : Nat → Act Nat), Exec false true σ α ∧ NoLockedPass false σ α 375 ∧ (∀ j, ¬ Failed (σ 375) j) ∧
    CallRet σ α 1 (.get 100) (some 0) 345 374 := by
  refine ⟨_, _, trace_exec false true witSched2, witSched2_clean, witSched2_ok, ?_⟩
  constructor
  · decide
  · left; decide +kernel
  · decide +kernel
  · have hl : witList2.length = 393 := by decide +kernel
    have h : allRun (fun s _ => inside (s.pc 1)) false true (trace false true witSched2 346) ((witList2.drop 346).take 29) = true := by decide +kernel
    have hl2 : ((witList2.drop 346).take 29).length = 29 := by simp [hl]
    have H := allRun_trace _ 346 (fun j hj => by
      rw [List.getElem?_take, if_pos (by omega)]; exact witSched2_get 346 j (by omega)) h
    intro m h1 h2
    have := H (m - 346) (by omega)
    rw [show 346 + (m - 346) = m by omega] at this
    exact of_inside this
  · decide +kernel
  · decide +kernel

set_option maxRecDepth 100000 in
/-- The hypotheses of `C48_insert_partial`: the insert that splits the leaf, with two other calls in progress. -/
example : ∃ (σ : Nat → St Nat) (α : Nat → Act Nat), Exec false true σ α ∧ NoLockedPass false σ α 375 ∧ (∀ j, ¬ Failed (σ 375) j) ∧
    CallRet σ α 0 (.insert 2500 24) none 340 360 ∧ InCall (σ 350) 1 ∧ InCall (σ 350) 2 := by
  refine ⟨_, _, trace_exec false true witSched2, witSched2_clean, witSched2_ok, ?_, of_inside (by decide +kernel), of_inside (by decide +kernel)⟩
  constructor
  · decide
  · exact of_rest (by decide +kernel)
  · decide +kernel
  · have hl : witList2.length = 393 := by decide +kernel
    have h : allRun (fun s _ => inside (s.pc 0)) false true (trace false true witSched2 341) ((witList2.drop 341).take 20) = true := by decide +kernel
    have hl2 : ((witList2.drop 341).take 20).length = 20 := by simp [hl]
    have H := allRun_trace _ 341 (fun j hj => by
      rw [List.getElem?_take, if_pos (by omega)]; exact witSched2_get 341 j (by omega)) h
    intro m h1 h2
    have := H (m - 341) (by omega)
    rw [show 341 + (m - 341) = m by omega] at this
    exact of_inside this
  · decide +kernel
  · decide +kernel

set_option maxRecDepth 100000 in
/-- The hypotheses of `C48_get_alone_partial`: an insert, then a lookup. -/
example : ∃ (σ : Nat → St Nat) (α : Nat → Act Nat), Exec false true σ α ∧ (∀ j, ¬ Failed (σ 13) j) ∧
    (∀ m, m < 13 → ∀ i j, InCall (σ m) i → InCall (σ m) j → i = j) ∧ CallRet σ α 1 (.get 7) (some 5) 6 9 := by
  let l : List (Act Nat) := oneCall 0 (.insert 7 5) 5 ++ oneCall 1 (.get 7) 6
  let α : Nat → Act Nat := fun n => l[n]?.getD (.run 0)
  have hth : ∀ n j, 2 ≤ j → (α n).thread ≠ j := by
    intro n j hj
    have h : ∀ a ∈ l, a.thread < 2 := by decide +kernel
    show (l[n]?.getD (.run 0)).thread ≠ j
    cases e : l[n]? with
    | none => simp [Act.thread]; omega
    | some a => have := h a (List.mem_of_getElem? e); simp only [Option.getD_some]; omega
  have hid : ∀ m j, 2 ≤ j → (trace false true α m).pc j = .idle := fun m j hj => trace_idle (fun n => hth n j hj) m
  have h01 : ∀ m, m < 14 → (inside ((trace false true α m).pc 0) && inside ((trace false true α m).pc 1)) = false := by decide +kernel
  have hin : ∀ {s : St Nat} {i : Nat}, InCall s i → inside (s.pc i) = true := by
    intro s i h
    cases hp : s.pc i with
    | idle => exact absurd hp h.1
    | done a b => exact absurd hp (h.2.1 a b)
    | fail a b => exact absurd hp (h.2.2 a b)
    | _ => rfl
  have hlt : ∀ m i, InCall (trace false true α m) i → i < 2 := by
    intro m i h
    rcases Nat.lt_or_ge i 2 with g | g
    · exact g
    · exact absurd (hid m i g) h.1
  refine ⟨_, _, trace_exec false true α, ?_, ?_, ?_⟩
  · rintro i ⟨o, e, h⟩
    by_cases c : 2 ≤ i
    · rw [hid _ i c] at h; cases h
    · have h' : rest ((trace false true α 13).pc 0) = true ∧ rest ((trace false true α 13).pc 1) = true := by decide +kernel
      have : i = 0 ∨ i = 1 := by omega
      rcases this with g | g <;> subst g <;> rw [h] at h' <;> simp [rest] at h'
  · intro m hm i j hi hj
    have a := hlt m i hi
    have b := hlt m j hj
    have c := h01 m (by omega)
    by_cases e : i = j
    · exact e
    · exfalso
      have : (i = 0 ∧ j = 1) ∨ (i = 1 ∧ j = 0) := by omega
      rcases this with ⟨g1, g2⟩ | ⟨g1, g2⟩ <;> subst g1 <;> subst g2 <;> rw [hin hi, hin hj] at c <;> cases c
  · constructor
    · decide
    · left; decide +kernel
    · decide +kernel
    · intro m h1 h2
      have h : ∀ m, m < 10 → 6 < m → inside ((trace false true α m).pc 1) = true := by decide +kernel
      exact of_inside (h m (by omega) h1)
    · decide +kernel
    · decide +kernel
end Verif.Index
