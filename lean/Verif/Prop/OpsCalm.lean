import Verif.Proof.OpsAlone
import Verif.Prop.OpsMiss
import Verif.Prop.OpsHandOver
set_option linter.unusedSimpArgs false
set_option linter.unusedVariables false
/-!
# C71: lookups return once the inserts are over

C68 is about lookups that overlap no insert.  Here the lookup may have begun at any time, and may have been anywhere in the tree when the last
insert returned: in the middle of the search of a leaf that has been split since, in an internode that has been split since, or waiting for a lock.
Whatever the inserts have done, they leave no lookup behind that goes on for ever.
-/
namespace Verif.Ops
open Verif.Internode (upd upd_same upd_ne)
open Verif.Spec (Bytes)
variable {V : Type} {fixed strict : Bool} {τ : Nat → St V} {β : Nat → Option (Act V)} {N : Nat}

/-- No lock is released while no insert is under way. -/
theorem quiet_more (E : Exec fixed strict τ β) (C : ∀ N, Clean strict τ β N) {a b : Nat} (h : ∀ n, b ≤ n → ∀ i, ¬ Inserting (τ n) i)
    (hf : Forest.Few (Whole.leaves (tree τ)) a b) : ∀ k, Forest.Few (Whole.leaves (tree τ)) a (b + k)
  | 0 => hf
  | k + 1 => by
    intro L x
    have ih := quiet_more E C h hf k L x
    have e := quiet_hold E (C (b + k)) (Nat.le_refl _) (h (b + k) (by omega)) L
    rw [← Nat.add_assoc]
    have : Chain.releases (fun n => (Whole.leaves (tree τ) n).layer L) x (b + k + 1) =
        Chain.releases (fun n => (Whole.leaves (tree τ) n).layer L) x (b + k) := by
      show Chain.releases _ x (b + k) + _ = _
      rw [if_neg]
      · rfl
      · rintro ⟨g1, g2⟩
        have g2 : ((τ (b + k + 1)).w.f.layer L).hold x = .free := g2
        rw [e] at g2
        exact g1 g2
    rw [this]; exact ih

/-- **C71.** Every `get` that is under way at step `n0`, and after which no insert is under way, returns if its thread goes on; whatever inserts
have done since it was called.  The call has not lasted for half a million inserts into one leaf (the version counters, C19), and for the empty key
no value is on its way into a layer (finding 3). -/
theorem C71_get_returns (E : Exec fixed strict τ β) {i a n0 : Nat} {d : Bytes} (C : Clean strict τ β n0) (h : Open τ β i (.get d) a n0)
    (hf : Forest.Few (Whole.leaves (tree τ)) a n0) (hz : d = [] → ∀ j, a ≤ j → j ≤ n0 → ¬ Forest.InTransit (τ j).w.f d)
    (hq : ∀ n, n0 ≤ n → ∀ i, ¬ Inserting (τ n) i) (hr : ∀ n, ∃ m, n ≤ m ∧ Runs β i m) : ∃ b r, Call τ β i (.get d) a b r := by
  have Cl : ∀ N, Clean strict τ β N := fun N => by
    by_cases g : N ≤ n0
    · exact Whole.Clean.sub C g
    · obtain ⟨k, rfl⟩ := Nat.exists_eq_add_of_le (Nat.le_of_not_le g)
      exact quiet_clean E C k fun n h1 _ => hq n h1
  have : ∃ e, n0 ≤ e ∧ ((τ e).ph i).over = true := by
    refine Classical.byContradiction fun g => ?_
    have A : Alone fixed strict τ β i a n0 d := by
      refine ⟨E, Cl, fun n hn => ⟨h.call, h.free, by have := h.lt; omega, fun m g1 g2 => ?_⟩, fun n hn => ?_, fun e j hj => ?_, hq, hr⟩
      · by_cases hm : m ≤ n0
        · exact h.busy m g1 hm
        · cases e : ((τ m).ph i).over with
          | false => rfl
          | true => exact absurd ⟨m, by omega, e⟩ g
      · obtain ⟨k, rfl⟩ := Nat.exists_eq_add_of_le hn
        exact quiet_more E Cl hq hf k
      · by_cases hm : j ≤ n0
        · exact hz e j hj hm
        · exact quiet_transit E (Cl j) (Nat.le_refl j) (hq j (by omega)) d
    exact A.never
  obtain ⟨e, h3, h4⟩ := this
  obtain ⟨b, r, _, _, h5⟩ := h.returns E h3 h4
  exact ⟨b, r, h5⟩

/-- **C71** of the code as it is. -/
theorem C71_get_returns_all (E : ExecAll fixed strict τ β) {i a n0 : Nat} {d : Bytes} (C : Clean strict τ β n0) (R : Regular τ β n0) (h : Open τ β i (.get d) a n0)
    (hf : Forest.Few (Whole.leaves (tree τ)) a n0) (hz : d = [] → ∀ j, a ≤ j → j ≤ n0 → ¬ Forest.InTransit (τ j).w.f d)
    (hq : ∀ n, n0 ≤ n → ∀ i, ¬ Inserting (τ n) i) (hr : ∀ n, ∃ m, n ≤ m ∧ Runs β i m) : ∃ b r, Call τ β i (.get d) a b r := by
  have Rn : ∀ n, Regular τ β n := fun n => by
    by_cases g : n ≤ n0
    · exact fun m hm => R m (by omega)
    · obtain ⟨k, rfl⟩ := Nat.exists_eq_add_of_le (Nat.le_of_not_le g)
      exact (quiet_regular E C R k fun n h1 _ => hq n h1).1
  have e : Ops.plain fixed strict (τ 0) β = τ := funext fun n => (E.plain (Rn n)).2 n (Nat.le_refl n)
  have E' := (E.plain (Rn 0)).1
  rw [e] at E'
  exact C71_get_returns E' C h hf hz hq hr

/-! ## Witness -/

/-- Thread 0 fills the leaf; thread 1 looks up 47 and has read some slots of the leaf when thread 0 inserts one more key and splits it, which takes
47 to another leaf. -/
def passed : List (Act Nat) :=
  insertMany 24 ++ .call 1 (.get (key8 47)) :: go 1 6 ++ .call 0 (.insert (key8 100) 100) :: List.replicate 64 (.run 0 2 [])

/-- From there on thread 1 goes on for ever. -/
def passedOn (n : Nat) : Option (Act Nat) := if n < 480 then passed[n]? else some (.run 1 2 [])

set_option maxRecDepth 100000 in
theorem passed_clean : Clean false (trace false false empty passed) (fun n => passed[n]?) 480 :=
  clean_trace (as := passed) (by decide +kernel)

set_option maxRecDepth 100000 in
theorem passed_quiet : ∀ i, ¬ Inserting (trace false false empty passed 480) i := by
  intro i hi
  cases i with
  | zero =>
    have h := hi.1
    rw [show ((trace false false empty passed 480).ph 0).over = true from by decide +kernel] at h; cases h
  | succ i =>
    cases i with
    | zero =>
      obtain ⟨_, d, v, h⟩ := hi
      have : (trace false false empty passed 480).op 1 = .get (key8 47) := by with_unfolding_all rfl
      rw [this] at h; cases h
    | succ i =>
      have h := hi.1
      have : ((trace false false empty passed 480).ph (i + 2)) = .idle := by with_unfolding_all rfl
      rw [this] at h; cases h

/-- Thread 1 is busy from its call on. -/
def busyFrom (i a : Nat) (n : Nat) (s : St Nat) : Bool := (n ≤ a || !(s.ph i).over) && (n != a || (s.ph i).over)

set_option maxRecDepth 100000 in
theorem passed_open : Open (trace false false empty passed) (fun n => passed[n]?) 1 (.get (key8 47)) 408 480 := by
  have w0 : ∀ n, n ≤ passed.length → busyFrom 1 408 n (trace false false empty passed n) = true := by
    intro n hn
    have := walk_spec (f := act false false) (p := busyFrom 1 408) (k := 0) (s := empty) (as := passed) (by decide +kernel) hn
    simpa [trace] using this
  have hl : passed.length = 480 := by decide +kernel
  refine ⟨by with_unfolding_all rfl, ?_, by omega, fun n h1 h2 => ?_⟩
  · have := w0 408 (by omega)
    unfold busyFrom at this
    rw [Bool.and_eq_true, Bool.or_eq_true] at this
    exact this.2
  · have := w0 n (by omega)
    unfold busyFrom at this
    rw [Bool.and_eq_true, Bool.or_eq_true] at this
    rcases this.1 with g | g
    · exact absurd (of_decide_eq_true g) (by omega)
    · simpa using g

set_option maxRecDepth 100000 in
/-- The lookup meets the hypotheses when the insert has returned; it is then in the leaf it has begun to search, which has been split. -/
theorem C71_witness :
    let τ := plain false false empty passedOn
    Exec false false τ passedOn ∧ Clean false τ passedOn 480 ∧ Open τ passedOn 1 (.get (key8 47)) 408 480 ∧
      Forest.Few (Whole.leaves (tree τ)) 408 480 ∧ (∀ n, 480 ≤ n → ∀ i, ¬ Inserting (τ n) i) ∧ (∀ n, ∃ m, n ≤ m ∧ Runs passedOn 1 m) ∧
      Inserting (τ 440) 0 ∧ (τ 480).ph 1 = .read 0 0 ∧ (((τ 480).w.f.layer 0).leaf 1).nx = 2 := by
  have E : Exec false false (plain false false empty passedOn) passedOn := ⟨(trace_exec (fixed := false) (strict := false) passed).start, fun n => rfl⟩
  have A : ∀ n, n ≤ 480 → plain false false empty passedOn n = trace false false empty passed n := by
    intro n
    induction n with
    | zero => intro _; rfl
    | succ n ih =>
      intro hn
      rw [E.steps n, (trace_exec (fixed := false) (strict := false) passed).steps n, ih (by omega)]
      have : passedOn n = passed[n]? := if_pos (by omega)
      rw [this]
  have hc : ∀ n, 480 ≤ n → ∀ i d v, passedOn n ≠ some (.call i (.insert d v)) := by
    intro n hn i d v h
    unfold passedOn at h
    rw [if_neg (by omega)] at h
    cases h
  refine ⟨E, ?_, ?_, Forest.few_of (by omega), fun n hn => ?_, fun n => ⟨n + 480, by omega, 2, [], ?_⟩, ⟨?_, key8 100, 100, ?_⟩, ?_, ?_⟩
  · refine ⟨fun n hn L i h => ?_, fun n hn L i o e => ?_⟩
    · have : moves (plain false false empty passedOn) passedOn n = moves (trace false false empty passed) (fun n => passed[n]?) n := by
        unfold moves
        rw [A n (by omega), show passedOn n = passed[n]? from if_pos (by omega)]
      rw [this] at h
      have := passed_clean.calm n hn L i h
      unfold tree at this ⊢
      rw [A n (by omega)]; exact this
    · have := passed_clean.done n hn L i o e
      unfold tree at this ⊢
      rw [A n hn]; exact this
  · have h := passed_open
    refine ⟨?_, ?_, h.lt, fun n h1 h2 => ?_⟩
    · rw [show passedOn 408 = passed[408]? from if_pos (by omega)]; exact h.call
    · rw [A 408 (by omega)]; exact h.free
    · rw [A n h2]; exact h.busy n h1 h2
  · obtain ⟨k, rfl⟩ := Nat.exists_eq_add_of_le hn
    exact no_insert_after E (by rw [A 480 (Nat.le_refl _)]; exact passed_quiet) hc k
  · unfold passedOn
    rw [if_neg (by omega)]
  · rw [A 440 (by omega)]; decide +kernel
  · rw [A 440 (by omega)]; with_unfolding_all rfl
  · rw [A 480 (by omega)]; with_unfolding_all rfl
  · rw [A 480 (by omega)]; decide +kernel

set_option maxRecDepth 100000 in
/-- The execution with the same steps of the code as it is, is regular. -/
theorem C71_regular_witness :
    ExecAll false false (traceAll false false empty passed) (fun n => passed[n]?) ∧ Regular (traceAll false false empty passed) (fun n => passed[n]?) 480 := by
  refine ⟨traceAll_exec _, fun n hn i hi => ?_⟩
  have := walk_spec (f := actAll false false) (p := fun n s => !parting s 0 && !lost s 0 && !parting s 1 && !lost s 1) (as := passed) (s := empty) (k := 0)
    (by decide +kernel) (n := n) (by rw [show passed.length = 480 by decide +kernel]; omega)
  have h2 : i < 2 := by
    obtain ⟨y, qs, e⟩ := hi
    have := List.all_eq_true.mp (show passed.all two = true by decide +kernel) _ (List.mem_of_getElem? e)
    simpa [two] using this
  simp only [Bool.and_eq_true, Bool.not_eq_true'] at this
  obtain ⟨⟨⟨k1, k2⟩, k3⟩, k4⟩ := this
  rcases (by omega : i = 0 ∨ i = 1) with rfl | rfl
  · exact ⟨k1, k2⟩
  · exact ⟨k3, k4⟩
end Verif.Ops
