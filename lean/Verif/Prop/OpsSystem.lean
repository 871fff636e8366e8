import Verif.Prop.OpsProgress
set_option linter.unusedSimpArgs false
set_option linter.unusedVariables false
/-!
# C74: the tree as a whole makes progress

C72 is about executions in which no more inserts are called.  Here inserts are called for ever.  A single one may then be overtaken again and again,
but as long as there is one under way, some insert returns.
-/
namespace Verif.Ops
open Verif.Spec (Bytes)
variable {V : Type} {fixed strict : Bool} {τ : Nat → St V} {β : Nat → Option (Act V)} {N : Nat}

/-- Only the threads below `T` call anything. -/
def Threads (β : Nat → Option (Act V)) (T : Nat) : Prop := ∀ n i o, β n = some (.call i o) → i < T

/-! ## Calls of threads that are busy -/

open Classical in
/-- The same without the calls of threads that have one under way already, which have no effect. -/
noncomputable def heard (τ : Nat → St V) (β : Nat → Option (Act V)) (n : Nat) : Option (Act V) :=
  if ∃ i o, β n = some (.call i o) ∧ ((τ n).ph i).over = false then none else β n

theorem heard_runs {n i y : Nat} {qs : List Nat} : heard τ β n = some (.run i y qs) ↔ β n = some (.run i y qs) := by
  unfold heard
  split
  · rename_i h
    obtain ⟨j, o, h, _⟩ := h
    rw [h]; exact ⟨nofun, nofun⟩
  · exact Iff.rfl

theorem heard_call {n i : Nat} {o : Op V} (h : heard τ β n = some (.call i o)) : β n = some (.call i o) ∧ ((τ n).ph i).over = true := by
  unfold heard at h
  split at h
  · cases h
  · rename_i g
    refine ⟨h, ?_⟩
    cases e : ((τ n).ph i).over with
    | true => rfl
    | false => exact absurd ⟨i, o, h, e⟩ g

theorem heard_moves : moves τ (heard τ β) = moves τ β := by
  funext n
  unfold moves heard
  split
  · rename_i h
    obtain ⟨j, o, h, _⟩ := h
    rw [h]; rfl
  · rfl

theorem ExecAll.heard (E : ExecAll fixed strict τ β) : ExecAll fixed strict τ (heard τ β) := by
  refine ⟨E.start, fun n => ?_⟩
  rw [E.steps n]
  unfold Ops.heard
  by_cases h : ∃ i o, β n = some (.call i o) ∧ ((τ n).ph i).over = false
  · rw [if_pos h]
    obtain ⟨j, o, h, g⟩ := h
    rw [h]
    show act fixed strict (τ n) (.call j o) = τ n
    simp only [act, g, Bool.false_eq_true, if_false]
  · rw [if_neg h]

theorem heard_open {i a b : Nat} {o : Op V} (h : Open τ β i o a b) : Open τ (heard τ β) i o a b := by
  refine ⟨?_, h.free, h.lt, h.busy⟩
  unfold heard
  rw [if_neg, h.call]
  rintro ⟨j, o', k1, k2⟩
  rw [h.call] at k1
  injection k1 with k1
  injection k1 with k1 _
  subst k1
  rw [h.free] at k2; cases k2

theorem open_heard {i a b : Nat} {o : Op V} (h : Open τ (heard τ β) i o a b) : Open τ β i o a b := ⟨(heard_call h.call).1, h.free, h.lt, h.busy⟩

/-! ## A finite number of threads -/

open Classical in
/-- The number of threads below `T` of which something holds. -/
noncomputable def tally (P : Nat → Prop) : Nat → Nat
  | 0 => 0
  | T + 1 => tally P T + if P T then 1 else 0

theorem tally_le {P Q : Nat → Prop} (h : ∀ i, P i → Q i) : ∀ T, tally P T ≤ tally Q T
  | 0 => Nat.le_refl _
  | T + 1 => by
    have := tally_le h T
    unfold tally
    by_cases hp : P T
    · rw [if_pos hp, if_pos (h T hp)]; omega
    · rw [if_neg hp]; split <;> omega

theorem tally_lt {P Q : Nat → Prop} (h : ∀ i, P i → Q i) {i : Nat} (hq : Q i) (hp : ¬ P i) : ∀ {T}, i < T → tally P T < tally Q T
  | T + 1, hi => by
    have h1 := tally_le h T
    unfold tally
    by_cases e : i = T
    · subst e
      rw [if_neg hp, if_pos hq]; omega
    · have h2 := tally_lt h hq hp (T := T) (by omega)
      by_cases hpT : P T
      · rw [if_pos hpT, if_pos (h T hpT)]; omega
      · rw [if_neg hpT]; split <;> omega

/-! ## The theorems -/

/-- If inserts do not return any more, a moment comes from which on none is called. -/
theorem no_more (E : ExecAll fixed strict τ β) (R : ∀ N, Regular τ β N) {T a : Nat} (ht : Threads β T)
    (hn : ∀ i d v c b r, a ≤ b → ¬ Call τ β i (.insert d v) c b r) :
    (∀ n, a ≤ n → ∀ i, Inserting (τ n) i → Inserting (τ (n + 1)) i) ∧ ∃ b, a ≤ b ∧ NoMore (heard τ β) b := by
  have e : Ops.plain fixed strict (τ 0) β = τ := funext fun n => (E.plain (R n)).2 n (Nat.le_refl n)
  have E' := (E.plain (R 0)).1
  rw [e] at E'
  have stay : ∀ n, a ≤ n → ∀ i, Inserting (τ n) i → Inserting (τ (n + 1)) i := by
    intro n hn' i ⟨h1, d, v, h2⟩
    obtain ⟨c, o⟩ := E'.opened n i h1
    rw [h2] at o
    have hop := o.op E' (n + 1) (Nat.lt_succ_of_lt o.lt) (Nat.le_refl _)
    refine ⟨?_, d, v, hop⟩
    cases g : ((τ (n + 1)).ph i).over with
    | false => rfl
    | true =>
      obtain ⟨b, r, k1, _, k3⟩ := o.returns E' (Nat.le_succ n) g
      exact absurd k3 (hn i d v c b r (by omega))
  refine ⟨stay, ?_⟩
  obtain ⟨b, hb, hc⟩ := settles Nat.lt_wfRel.wf (f := fun n => tally (fun i => ¬ Inserting (τ n) i) T) (a := a) fun n hn' => by
    have := tally_le (P := fun i => ¬ Inserting (τ (n + 1)) i) (Q := fun i => ¬ Inserting (τ n) i) (fun i h g => h (stay n hn' i g)) T
    show _ = _ ∨ _ < _
    omega
  refine ⟨b, hb, fun n hn' i d v hcall => ?_⟩
  obtain ⟨h1, h2⟩ := heard_call hcall
  have := tally_lt (P := fun i => ¬ Inserting (τ (n + 1)) i) (Q := fun i => ¬ Inserting (τ n) i) (fun i h g => h (stay n (by omega) i g))
    (i := i) (fun g => by have := g.1; rw [h2] at this; cases this) (fun g => g ?_) (ht n i _ h1)
  · have e1 : tally (fun i => ¬ Inserting (τ (n + 1)) i) T = _ := hc (n + 1) (by omega)
    have e2 : tally (fun i => ¬ Inserting (τ n) i) T = _ := hc n hn'
    omega
  · have hs := E'.steps n
    rw [h1] at hs
    have hs : τ (n + 1) = act fixed strict (τ n) (.call i (.insert d v)) := hs
    rw [hs]
    simp only [act, h2, if_true]
    refine ⟨?_, d, v, ?_⟩
    · simp only [Internode.upd_same]; rfl
    · simp only [Internode.upd_same]

/-- **C74.** If an insert is under way, some insert returns later, even if more and more inserts are called.  Any finite number of threads;
`Fair` as in C72. -/
theorem C74_some_insert_returns (E : ExecAll fixed strict τ β) (C : ∀ N, Clean strict τ β N) (R : ∀ N, Regular τ β N) {T : Nat} (ht : Threads β T) {a : Nat}
    (hr : Fair fixed strict τ β a) {i c : Nat} {d : Bytes} {v : V} (h : Open τ β i (.insert d v) c a) :
    ∃ i' d' v' c' b r, a ≤ b ∧ Call τ β i' (.insert d' v') c' b r := by
  refine Classical.byContradiction fun g => ?_
  obtain ⟨stay, b, hb, hc⟩ := no_more E R ht (a := a) fun i d v c b r h1 h2 => g ⟨i, d, v, c, b, r, h1, h2⟩
  have e : Ops.plain fixed strict (τ 0) β = τ := funext fun n => (E.plain (R n)).2 n (Nat.le_refl n)
  have E' := (E.plain (R 0)).1
  rw [e] at E'
  have on : ∀ k, Inserting (τ (a + k)) i := by
    intro k
    induction k with
    | zero => exact ⟨h.busy a h.lt (Nat.le_refl a), d, v, h.op E' a h.lt (Nat.le_succ a)⟩
    | succ k ih => exact stay (a + k) (Nat.le_add_right a k) i ih
  obtain ⟨q, h1, h2⟩ := C72_inserts_end E.heard (a := b) (fun N => by have := C N; unfold Clean at this ⊢; rw [heard_moves]; exact this)
    (fun N n hn i ⟨y, qs, hi⟩ => R N n hn i ⟨y, qs, heard_runs.1 hi⟩) hc fun n hn i hi => by
      obtain ⟨m, k1, ⟨y, qs, k2⟩, k3⟩ := hr n (by omega) i hi
      exact ⟨m, k1, ⟨y, qs, heard_runs.2 k2⟩, k3⟩
  have := on (q - a)
  rw [show a + (q - a) = q by omega] at this
  exact h2 q (Nat.le_refl q) i this

/-- **C74.** If a lookup is under way, it returns, or some insert returns later, under the conditions of C71. -/
theorem C74_get_or_insert_returns (E : ExecAll fixed strict τ β) (C : ∀ N, Clean strict τ β N) (R : ∀ N, Regular τ β N) {T : Nat} (ht : Threads β T) {a : Nat}
    (hr : Fair fixed strict τ β a) {i c : Nat} {d : Bytes} (h : Open τ β i (.get d) c a) (hf : ∀ n, Open τ β i (.get d) c n → Forest.Few (Whole.leaves (tree τ)) c n)
    (hz : d = [] → ∀ j, c ≤ j → ¬ Forest.InTransit (τ j).w.f d) (hg : ∀ n, ∃ m, n ≤ m ∧ Runs β i m) :
    (∃ b r, Call τ β i (.get d) c b r) ∨ ∃ i' d' v' c' b r, a ≤ b ∧ Call τ β i' (.insert d' v') c' b r := by
  refine Classical.byContradiction fun g => ?_
  obtain ⟨g1, g2⟩ := not_or.1 g
  obtain ⟨_, b, hb, hc⟩ := no_more E R ht (a := a) fun i d v c b r h1 h2 => g2 ⟨i, d, v, c, b, r, h1, h2⟩
  have e : Ops.plain fixed strict (τ 0) β = τ := funext fun n => (E.plain (R n)).2 n (Nat.le_refl n)
  have E' := (E.plain (R 0)).1
  rw [e] at E'
  have ob : Open τ β i (.get d) c b := by
    have lt := h.lt
    refine ⟨h.call, h.free, by omega, fun m k1 k2 => ?_⟩
    by_cases hm : m ≤ a
    · exact h.busy m k1 hm
    · cases ev : ((τ m).ph i).over with
      | false => rfl
      | true =>
        obtain ⟨b, r, _, _, h5⟩ := h.returns E' (Nat.le_of_not_le hm) ev
        exact absurd ⟨b, r, h5⟩ g1
  obtain ⟨q, r, hq⟩ := C72_get_returns E.heard (a := b) (fun N => by have := C N; unfold Clean at this ⊢; rw [heard_moves]; exact this)
    (fun N n hn i ⟨y, qs, hi⟩ => R N n hn i ⟨y, qs, heard_runs.1 hi⟩) hc (fun n hn i hi => by
      obtain ⟨m, k1, ⟨y, qs, k2⟩, k3⟩ := hr n (by omega) i hi
      exact ⟨m, k1, ⟨y, qs, heard_runs.2 k2⟩, k3⟩) (heard_open ob) (fun n o => hf n (open_heard o)) hz
    fun n => by
      obtain ⟨m, k1, y, qs, k2⟩ := hg n
      exact ⟨m, k1, y, qs, heard_runs.2 k2⟩
  exact g1 ⟨q, r, open_heard hq.busy, hq.ends⟩

set_option maxRecDepth 100000 in
/-- The two inserts of `C72_witness` meet the hypotheses of `C74_some_insert_returns`. -/
theorem C74_witness :
    let τ := traceAll false false empty together
    let β := fun n => together[n]?
    ExecAll false false τ β ∧ (∀ N, Clean false τ β N) ∧ (∀ N, Regular τ β N) ∧ Threads β 2 ∧ Fair false false τ β 410 ∧
      Open τ β 0 (.insert (key8 100) 100) 408 410 ∧ Open τ β 1 (.insert (key8 50) 50) 409 410 := by
  obtain ⟨h1, h2, h3, _, h5, h6, h7, _⟩ := C72_witness
  refine ⟨h1, h2, h3, fun n i o e => ?_, h5, h6, h7⟩
  have := List.all_eq_true.mp (show together.all two = true by decide +kernel) _ (List.mem_of_getElem? e)
  simpa [two] using this

end Verif.Ops
