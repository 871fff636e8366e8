import Verif.Prop.OpsCalm
import Verif.Proof.OpsStuck
set_option linter.unusedSimpArgs false
set_option linter.unusedVariables false
/-!
# C72: no call is delayed for ever

C69 is about an insert that is the only one under way.  Here any number of inserts is under way, and they wait for each other's locks, throw each
other back to the root and split the leaf that another is on its way to.  If no further inserts are called, all of them return.
-/
namespace Verif.Ops
open Verif.Internode (upd upd_same upd_ne)
open Verif.Spec (Bytes)
variable {V : Type} {fixed strict : Bool} {τ : Nat → St V} {β : Nat → Option (Act V)} {N : Nat}

/-- No thread with an insert under way is left alone: there comes another step of it, and one that changes something unless no step of it would
change anything at that moment (it waits for a lock). -/
def Fair (fixed strict : Bool) (τ : Nat → St V) (β : Nat → Option (Act V)) (a : Nat) : Prop :=
  ∀ n, a ≤ n → ∀ i, Inserting (τ n) i → ∃ m, n ≤ m ∧ Runs β i m ∧ (τ (m + 1) ≠ τ m ∨ ∀ y qs, actAll fixed strict (τ m) (.run i y qs) = τ m)

/-- No insert is called from step `a` on. -/
def NoMore (β : Nat → Option (Act V)) (a : Nat) : Prop := ∀ n, a ≤ n → ∀ i d v, β n ≠ some (.call i (.insert d v))

/-- **C72** of the code as it is: if no insert is called from step `a` on, there is a moment after which none is under way. -/
theorem C72_inserts_end (E : ExecAll fixed strict τ β) (C : ∀ N, Clean strict τ β N) (R : ∀ N, Regular τ β N) {a : Nat} (hc : NoMore β a)
    (hr : Fair fixed strict τ β a) : ∃ b, a ≤ b ∧ ∀ n, b ≤ n → ∀ i, ¬ Inserting (τ n) i := by
  have e : Ops.plain fixed strict (τ 0) β = τ := funext fun n => (E.plain (R n)).2 n (Nat.le_refl n)
  have E' := (E.plain (R 0)).1
  rw [e] at E'
  refine all_return E' C hc (fun n _ i hi => (R (n + 1) n (Nat.lt_succ_self n) i hi).1) fun n hn i hi => ?_
  obtain ⟨m, h1, h2, h3⟩ := hr n hn i hi
  refine ⟨m, h1, h2, ?_⟩
  rcases h3 with h3 | h3
  · exact .inl h3
  · right
    rintro ⟨y, qs, g⟩
    obtain ⟨k1, k2⟩ := R (m + 1) m (Nat.lt_succ_self m) i h2
    have := h3 y qs
    simp only [actAll, k1, k2, Bool.or_self, Bool.false_eq_true, if_false] at this
    exact g this

/-- **C72** of the code as it is: every `insert` that is under way when the last one has been called returns. -/
theorem C72_insert_returns (E : ExecAll fixed strict τ β) (C : ∀ N, Clean strict τ β N) (R : ∀ N, Regular τ β N) {a : Nat} (hc : NoMore β a)
    (hr : Fair fixed strict τ β a) {i c : Nat} {d : Bytes} {v : V} (h : Open τ β i (.insert d v) c a) : ∃ b r, Call τ β i (.insert d v) c b r := by
  have e : Ops.plain fixed strict (τ 0) β = τ := funext fun n => (E.plain (R n)).2 n (Nat.le_refl n)
  have E' := (E.plain (R 0)).1
  rw [e] at E'
  obtain ⟨b, h1, h2⟩ := C72_inserts_end E C R hc hr
  refine Classical.byContradiction fun g => ?_
  have ob : ∀ k, Open τ β i (.insert d v) c (a + k) := by
    intro k
    have lt := h.lt
    refine ⟨h.call, h.free, by omega, fun m g1 g2 => ?_⟩
    by_cases hm : m ≤ a
    · exact h.busy m g1 hm
    · cases ev : ((τ m).ph i).over with
      | false => rfl
      | true =>
        obtain ⟨b, r, _, _, h5⟩ := h.returns E' (Nat.le_of_not_le hm) ev
        exact absurd ⟨b, r, h5⟩ g
  have o := ob (b - a)
  rw [show a + (b - a) = b by omega] at o
  exact h2 b (Nat.le_refl b) i ⟨o.busy b o.lt (Nat.le_refl b), d, v, o.op E' b o.lt (Nat.le_succ b)⟩

/-- **C72** of the code as it is: every `get` that is under way when the last insert has been called returns too, under the conditions of C71. -/
theorem C72_get_returns (E : ExecAll fixed strict τ β) (C : ∀ N, Clean strict τ β N) (R : ∀ N, Regular τ β N) {a : Nat} (hc : NoMore β a)
    (hr : Fair fixed strict τ β a) {i c : Nat} {d : Bytes} (h : Open τ β i (.get d) c a) (hf : ∀ n, Open τ β i (.get d) c n → Forest.Few (Whole.leaves (tree τ)) c n)
    (hz : d = [] → ∀ j, c ≤ j → ¬ Forest.InTransit (τ j).w.f d) (hg : ∀ n, ∃ m, n ≤ m ∧ Runs β i m) : ∃ b r, Call τ β i (.get d) c b r := by
  have e : Ops.plain fixed strict (τ 0) β = τ := funext fun n => (E.plain (R n)).2 n (Nat.le_refl n)
  have E' := (E.plain (R 0)).1
  rw [e] at E'
  obtain ⟨b, h1, h2⟩ := C72_inserts_end E C R hc hr
  refine Classical.byContradiction fun g => ?_
  have lt := h.lt
  have ob : Open τ β i (.get d) c b := by
    refine ⟨h.call, h.free, by omega, fun m g1 g2 => ?_⟩
    by_cases hm : m ≤ a
    · exact h.busy m g1 hm
    · cases ev : ((τ m).ph i).over with
      | false => rfl
      | true =>
        obtain ⟨b, r, _, _, h5⟩ := h.returns E' (Nat.le_of_not_le hm) ev
        exact absurd ⟨b, r, h5⟩ g
  exact g (C71_get_returns_all E (C b) (R b) ob (hf b ob) (fun e j hj _ => hz e j hj) h2 hg)

/-! ## Witness -/

/-- Steps of thread 0 and thread 1 in turn. -/
def both : Nat → List (Act Nat)
  | 0 => []
  | k + 1 => .run 0 2 [] :: .run 1 2 [] :: both k

/-- Thread 0 fills the leaf; then thread 0 and thread 1 insert one more key each and get their steps in turn. -/
def together : List (Act Nat) :=
  insertMany 24 ++ .call 0 (.insert (key8 100) 100) :: .call 1 (.insert (key8 50) 50) :: both 73

set_option maxRecDepth 100000 in
theorem together_length : together.length = 556 := by decide +kernel

set_option maxRecDepth 100000 in
theorem together_clean : Clean false (trace false false empty together) (fun n => together[n]?) 556 := by
  have := clean_trace (fixed := false) (strict := false) (as := together) (by decide +kernel)
  rw [together_length] at this
  exact this

set_option maxRecDepth 100000 in
theorem together_regular : Regular (traceAll false false empty together) (fun n => together[n]?) 556 := by
  intro n hn i hi
  have := walk_spec (f := actAll false false) (p := fun n s => !parting s 0 && !lost s 0 && !parting s 1 && !lost s 1) (as := together) (s := empty) (k := 0)
    (by decide +kernel) (n := n) (by rw [together_length]; omega)
  have h2 : i < 2 := by
    obtain ⟨y, qs, e⟩ := hi
    have := List.all_eq_true.mp (show together.all two = true by decide +kernel) _ (List.mem_of_getElem? e)
    simpa [two] using this
  simp only [Bool.and_eq_true, Bool.not_eq_true'] at this
  obtain ⟨⟨⟨k1, k2⟩, k3⟩, k4⟩ := this
  rcases (by omega : i = 0 ∨ i = 1) with rfl | rfl
  · exact ⟨k1, k2⟩
  · exact ⟨k3, k4⟩

/-- Both are under way from step 410 on; thread 0 until step 536, thread 1 until step 555. -/
def untilEnd (n : Nat) (s : St Nat) : Bool :=
  (n < 410 || ((s.ph 0).over == Decidable.decide (536 < n) && (s.ph 1).over == Decidable.decide (555 < n))) && (n != 408 || (s.ph 0).over) && (n != 409 || (!(s.ph 0).over && (s.ph 1).over))

set_option maxRecDepth 100000 in
theorem together_until {n : Nat} (hn : n ≤ 556) : untilEnd n (trace false false empty together n) = true := by
  have := walk_spec (f := act false false) (p := untilEnd) (k := 0) (s := empty) (as := together) (by decide +kernel) (n := n) (by rw [together_length]; exact hn)
  simpa [trace] using this

set_option maxRecDepth 100000 in
/-- Two inserts of which both find a full leaf, one of which splits it while the other waits, meet the hypotheses. -/
theorem C72_witness :
    let τ := traceAll false false empty together
    let β := fun n => together[n]?
    ExecAll false false τ β ∧ (∀ N, Clean false τ β N) ∧ (∀ N, Regular τ β N) ∧ NoMore β 410 ∧ Fair false false τ β 410 ∧
      Open τ β 0 (.insert (key8 100) 100) 408 410 ∧ Open τ β 1 (.insert (key8 50) 50) 409 410 ∧ Inserting (τ 536) 0 ∧ Inserting (τ 536) 1 ∧
      (((τ 410).w.f.layer 0).leaf 1).nx = 0 ∧ (((τ 556).w.f.layer 0).leaf 1).nx = 2 := by
  have E : ExecAll false false (traceAll false false empty together) (fun n => together[n]?) := traceAll_exec _
  have last : ∀ n, 556 ≤ n → together[n]? = none := fun n hn => List.getElem?_eq_none (by rw [together_length]; exact hn)
  have R : ∀ N, Regular (traceAll false false empty together) (fun n => together[n]?) N := by
    intro N n _ i hi
    by_cases g : n < 556
    · exact together_regular n g i hi
    · obtain ⟨y, qs, e⟩ := hi
      have e : together[n]? = some (.run i y qs) := e
      rw [last n (by omega)] at e; cases e
  have A : ∀ n, traceAll false false empty together n = trace false false empty together n := fun n => by
    rw [← plain_trace]; exact ((E.plain (R n)).2 n (Nat.le_refl n)).symm
  have A' : traceAll false false empty together = trace false false empty together := funext A
  have op : ∀ n, 410 ≤ n → n ≤ 556 → (trace false false empty together n).op 0 = .insert (key8 100) 100 ∧
      (trace false false empty together n).op 1 = .insert (key8 50) 50 := by
    intro n
    induction n with
    | zero => intro h; omega
    | succ n ih =>
      intro h1 h2
      by_cases g : n = 409
      · subst g
        exact ⟨by with_unfolding_all rfl, by with_unfolding_all rfl⟩
      · have := ih (by omega) (by omega)
        have hb : ∃ i, together[n]? = some (.run i 2 []) := by
          have h : ∀ m, m < 146 → ∃ i, together[410 + m]? = some (.run i 2 []) := by
            intro m hm
            have hd : together[410 + m]? = (both 73)[m]? := by
              have hl : (insertMany 24).length = 408 := by decide +kernel
              unfold together
              rw [List.getElem?_append_right (by omega), hl, show 410 + m - 408 = m + 1 + 1 by omega]
              rfl
            have hb : ∀ k m, m < 2 * k → ∃ i, (both k)[m]? = some (.run i 2 []) := by
              intro k
              induction k with
              | zero => intro m h; omega
              | succ k ih =>
                intro m h
                match m with
                | 0 => exact ⟨0, rfl⟩
                | 1 => exact ⟨1, rfl⟩
                | m + 2 => exact ih m (by omega)
            rw [hd]; exact hb 73 m (by omega)
          have := h (n - 410) (by omega)
          rw [show 410 + (n - 410) = n by omega] at this
          exact this
        obtain ⟨i, hb⟩ := hb
        have := (run_eq (trace_exec (fixed := false) (strict := false) together) hb).2.1
        rw [this]
        exact ih (by omega) (by omega)
  have unt : ∀ n, 410 ≤ n → n ≤ 556 → ((trace false false empty together n).ph 0).over = Decidable.decide (536 < n) ∧
      ((trace false false empty together n).ph 1).over = Decidable.decide (555 < n) := by
    intro n h1 h2
    have := together_until h2
    simp only [untilEnd, Bool.and_eq_true, Bool.or_eq_true, beq_iff_eq, decide_eq_true_eq] at this
    rcases this.1.1 with g | g
    · omega
    · exact g
  have quiet : ∀ i, ¬ Inserting (trace false false empty together 556) i := by
    intro i hi
    have u := unt 556 (by omega) (Nat.le_refl _)
    match i with
    | 0 => have := hi.1; rw [u.1] at this; cases this
    | 1 => have := hi.1; rw [u.2] at this; cases this
    | i + 2 =>
      have h := hi.1
      have : ((trace false false empty together 556).ph (i + 2)) = .idle :=
        by
          have h := two_idle (fixed := false) (strict := false) (as := together) (by decide +kernel) (s := empty) (i := i + 2) (by omega) rfl
          have e : trace false false empty together 556 = together.foldl (act false false) empty := by
            unfold trace
            rw [List.take_of_length_le (by rw [together_length])]
          rw [e]; exact h
      rw [this] at h; cases h
  have nomore : ∀ n, 410 ≤ n → ∀ i d v, together[n]? ≠ some (.call i (.insert d v)) := by
    intro n hn i d v h
    by_cases g : n < 556
    · have h1 := unt n hn (by omega)
      have hd : together[n]? = (both 73)[n - 410]? := by
        have hl : (insertMany 24).length = 408 := by decide +kernel
        unfold together
        rw [List.getElem?_append_right (by omega), hl, show n - 408 = (n - 410) + 1 + 1 by omega]
        rfl
      rw [hd] at h
      have hb : ∀ (k m : Nat), (both k)[m]? ≠ some (Act.call i (.insert d v)) := by
        intro k
        induction k with
        | zero => intro m h; cases h
        | succ k ih =>
          intro m h
          match m with
          | 0 => cases h
          | 1 => cases h
          | m + 2 => exact ih m h
      exact hb _ _ h
    · rw [last n (by omega)] at h; cases h
  have E1 := trace_exec (fixed := false) (strict := false) together
  have after : ∀ n, 556 ≤ n → ∀ i, ¬ Inserting (trace false false empty together n) i := by
    intro n hn
    obtain ⟨k, rfl⟩ := Nat.exists_eq_add_of_le hn
    exact no_insert_after E1 quiet (fun n hn => nomore n (by omega)) k
  have C : ∀ N, Clean false (trace false false empty together) (fun n => together[n]?) N := by
    intro N
    by_cases g : N ≤ 556
    · exact Whole.Clean.sub together_clean g
    · obtain ⟨k, rfl⟩ := Nat.exists_eq_add_of_le (Nat.le_of_not_le g)
      exact quiet_clean E1 together_clean k fun n h1 _ => after n h1
  refine ⟨E, ?_, R, nomore, ?_, ?_, ?_, ?_, ?_, ?_, ?_⟩
  · rw [A']; exact C
  · intro n hn i hi
    rw [A'] at hi ⊢
    have hlt : n < 556 := by
      refine Classical.byContradiction fun g => after n (by omega) i hi
    have u := unt n hn (by omega)
    match i with
    | 0 =>
      have h := hi.1
      rw [u.1] at h
      have h := of_decide_eq_false h
      refine ⟨536, by omega, ⟨2, [], by with_unfolding_all rfl⟩, .inl fun e => ?_⟩
      have h1 := (unt 536 (by omega) (by omega)).1
      have h2 := (unt 537 (by omega) (by omega)).1
      rw [e, h1] at h2
      cases h2
    | 1 =>
      refine ⟨555, by omega, ⟨2, [], by with_unfolding_all rfl⟩, .inl fun e => ?_⟩
      have h1 := (unt 555 (by omega) (by omega)).2
      have h2 := (unt 556 (by omega) (by omega)).2
      rw [e, h1] at h2
      cases h2
    | i + 2 =>
      have h := hi.1
      have : ((trace false false empty together n).ph (i + 2)) = .idle :=
        two_idle (fixed := false) (strict := false) (as := together.take n)
          (List.all_eq_true.mpr fun x hx => List.all_eq_true.mp (show together.all two = true by decide +kernel) x (List.mem_of_mem_take hx))
          (s := empty) (i := i + 2) (by omega) rfl
      rw [this] at h; cases h
  · rw [A']
    refine ⟨by with_unfolding_all rfl, ?_, by omega, fun n h1 h2 => ?_⟩
    · have := together_until (n := 408) (by omega)
      simp only [untilEnd, Bool.and_eq_true, Bool.or_eq_true] at this
      rcases this.1.2 with g | g
      · cases g
      · exact g
    · rcases (by omega : n = 409 ∨ n = 410) with rfl | rfl
      · have := together_until (n := 409) (by omega)
        simp only [untilEnd, Bool.and_eq_true, Bool.or_eq_true, Bool.not_eq_true'] at this
        rcases this.2 with g | g
        · cases g
        · exact g.1
      · exact (unt 410 (by omega) (by omega)).1
  · rw [A']
    refine ⟨by with_unfolding_all rfl, ?_, by omega, fun n h1 h2 => ?_⟩
    · have := together_until (n := 409) (by omega)
      simp only [untilEnd, Bool.and_eq_true, Bool.or_eq_true, Bool.not_eq_true'] at this
      rcases this.2 with g | g
      · cases g
      · exact g.2
    · have : n = 410 := by omega
      subst this
      exact (unt 410 (by omega) (by omega)).2
  · rw [A']; exact ⟨(unt 536 (by omega) (by omega)).1, _, _, (op 536 (by omega) (by omega)).1⟩
  · rw [A']; exact ⟨(unt 536 (by omega) (by omega)).2, _, _, (op 536 (by omega) (by omega)).2⟩
  · rw [A']; decide +kernel
  · rw [A']; decide +kernel
end Verif.Ops
