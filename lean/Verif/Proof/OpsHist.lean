import Verif.Proof.OpsExec
set_option linter.unusedSimpArgs false
set_option linter.unusedVariables false
/-! What has happened in a call so far. -/
namespace Verif.Ops
open Verif.Internode (upd upd_same upd_ne)
open Verif.Spec (Bytes)
variable {V : Type} {fixed strict : Bool} {τ : Nat → St V} {β : Nat → Option (Act V)} {N : Nat}

theorem stored_eq (n : Nat) (d : Bytes) : stored τ β n d = wr (τ n).w (moves τ β n) d := rfl

theorem map_stored {n : Nat} {d : Bytes} {v : V} (h : stored τ β n d = some v) : map τ β d (n + 1) = some v := by
  unfold map Whole.map Forest.map
  unfold stored at h
  unfold tree at h
  unfold Whole.leaves
  rw [show (tree τ n).f = (τ n).w.f from rfl]
  have h : (Whole.stores (tree τ) (moves τ β) n).bind (Forest.written (τ n).w.f d) = some v := h
  rw [h]

theorem map_still {n : Nat} {d : Bytes} (h : stored τ β n d = none) : map τ β d (n + 1) = map τ β d n := by
  unfold map Whole.map
  conv => lhs; unfold Forest.map
  have h : (Whole.stores (tree τ) (moves τ β) n).bind (Forest.written (Whole.leaves (tree τ) n) d) = none := h
  rw [h]

/-- A thread that is not done is in a call. -/
theorem Exec.opened (E : Exec fixed strict τ β) : ∀ n i, ((τ n).ph i).over = false → ∃ a, Open τ β i ((τ n).op i) a n
  | 0, i, h => by rw [E.start.idle i] at h; cases h
  | n + 1, i, h => by
    have stay : (τ (n + 1)).op i = (τ n).op i → ((τ n).ph i).over = false → ∃ a, Open τ β i ((τ (n + 1)).op i) a (n + 1) := by
      intro h1 h2
      obtain ⟨a, ha⟩ := E.opened n i h2
      refine ⟨a, by rw [h1]; exact ha.call, ha.free, Nat.lt_succ_of_lt ha.lt, fun k k1 k2 => ?_⟩
      by_cases e : k = n + 1
      · rw [e]; exact h
      · exact ha.busy k k1 (by omega)
    cases e : β n with
    | none =>
      have := (none_eq E e).1
      rw [this] at h
      exact stay (by rw [this]) h
    | some x =>
      cases x with
      | call j o =>
        obtain ⟨_, _, _, g⟩ := call_eq E e
        rcases g with ⟨_, g⟩ | ⟨g1, g2, g3⟩
        · rw [g] at h
          exact stay (by rw [g]) h
        · by_cases hij : i = j
          · subst hij
            refine ⟨n, by rw [e, g2, upd_same], g1, Nat.lt_succ_self n, fun k k1 k2 => ?_⟩
            rw [show k = n + 1 by omega]; exact h
          · rw [g3, upd_ne _ _ _ hij] at h
            exact stay (by rw [g2, upd_ne _ _ _ hij]) h
      | run j y qs =>
        obtain ⟨_, g2, g3, _, _⟩ := run_eq E e
        by_cases hij : i = j
        · subst hij
          refine stay (by rw [g2]) ?_
          cases g : ((τ n).ph i).over with
          | false => rfl
          | true =>
            exfalso
            rw [g3, upd_same] at h
            unfold next at h
            simp only at h
            split at h <;> rename_i g' <;> rw [g'] at g <;> cases g <;> cases h
        · rw [g3, upd_ne _ _ _ hij] at h
          exact stay (by rw [g2]) h

/-- The call stays the same. -/
theorem Open.op (E : Exec fixed strict τ β) {i a b : Nat} {o : Op V} (h : Open τ β i o a b) : ∀ n, a < n → n ≤ b + 1 → (τ n).op i = o := by
  intro n
  induction n with
  | zero => intro h1; cases h1
  | succ n ih =>
    intro h1 h2
    by_cases e : n = a
    · subst e
      obtain ⟨_, _, _, g⟩ := call_eq E h.call
      rcases g with ⟨g, _⟩ | ⟨_, g, _⟩
      · rw [h.free] at g; cases g
      · rw [g, upd_same]
    · have ih := ih (by omega) (by omega)
      cases eb : β n with
      | none => rw [(none_eq E eb).1]; exact ih
      | some x =>
        cases x with
        | call j o' =>
          obtain ⟨_, _, _, g⟩ := call_eq E eb
          rcases g with ⟨_, g⟩ | ⟨g1, g, _⟩
          · rw [g]; exact ih
          · have : i ≠ j := by
              rintro rfl
              rw [h.busy n (by omega) (by omega)] at g1; cases g1
            rw [g, upd_ne _ _ _ this]; exact ih
        | run j y qs => rw [(run_eq E eb).2.1]; exact ih

theorem Open.starts (E : Exec fixed strict τ β) {i a b : Nat} {o : Op V} (h : Open τ β i o a b) : (τ (a + 1)).ph i = .enter 0 0 := by
  obtain ⟨_, _, _, g⟩ := call_eq E h.call
  rcases g with ⟨g, _⟩ | ⟨_, _, g⟩
  · rw [h.free] at g; cases g
  · rw [g, upd_same]

/-- What the other steps do to a thread in a call. -/
theorem Open.other (E : Exec fixed strict τ β) {i a b n : Nat} {o : Op V} (h : Open τ β i o a b) (h1 : a < n) (h2 : n ≤ b) (hr : ¬ Runs β i n) :
    (τ (n + 1)).ph i = (τ n).ph i := by
  cases eb : β n with
  | none => rw [(none_eq E eb).1]
  | some x =>
    cases x with
    | call j o' =>
      obtain ⟨_, _, _, g⟩ := call_eq E eb
      rcases g with ⟨_, g⟩ | ⟨g1, _, g⟩
      · rw [g]
      · have : i ≠ j := by
          rintro rfl
          rw [h.busy n h1 h2] at g1; cases g1
        rw [g, upd_ne _ _ _ this]
    | run j y qs =>
      have : i ≠ j := by rintro rfl; exact hr ⟨y, qs, eb⟩
      rw [(run_eq E eb).2.2.1, upd_ne _ _ _ this]

/-- An insert so far: it has stored nothing, or it has stored its key once. -/
theorem Open.insert (E : Exec fixed strict τ β) {i a b : Nat} {d : Bytes} {v : V} (h : Open τ β i (.insert d v) a b) (C : Clean strict τ β (b + 1)) :
    ∀ n, a < n → n ≤ b + 1 →
      (((τ n).ph i).lin = none ∧ ∀ k, a < k → k < n → Runs β i k → ∀ d', stored τ β k d' = none) ∨
      ∃ k, a < k ∧ k < n ∧ Runs β i k ∧ (∀ d', stored τ β k d' = if d' = d then some v else none) ∧ ((τ n).ph i).lin = some (map τ β d k) ∧
        ∀ k', a < k' → k' < n → k' ≠ k → Runs β i k' → ∀ d', stored τ β k' d' = none := by
  intro n
  induction n with
  | zero => intro h1; cases h1
  | succ n ih =>
    intro h1 h2
    by_cases e : n = a
    · subst e
      left
      rw [h.starts E]
      exact ⟨rfl, fun k _ _ => by omega⟩
    · have ih := ih (by omega) (by omega)
      by_cases hr : Runs β i n
      · obtain ⟨y, qs, er⟩ := hr
        have ho := h.op E n (by omega) (by omega)
        have K := E.know C (n := n) (by omega)
        have P := E.phases C n (by omega) i
        rw [ho] at P
        obtain ⟨_, g2, g3, _, g5⟩ := run_eq E er
        have eff := (put_next (fixed := fixed) (strict := strict) K ho P y qs).2
        have ep : (τ (n + 1)).ph i = (next (τ n) i y qs).2 := by rw [g3, upd_same]
        rw [← ep, ← g5] at eff
        rcases eff with ⟨w1, w2⟩ | ⟨w1, w2, x, _, _, w3, w4⟩
        · rw [w2]
          rcases ih with ⟨i1, i2⟩ | ⟨k, i1, i2, i3, i4, i5, i6⟩
          · refine .inl ⟨i1, fun k k1 k2 k3 d' => ?_⟩
            by_cases ek : k = n
            · subst ek; exact w1 d'
            · exact i2 k k1 (by omega) k3 d'
          · refine .inr ⟨k, i1, by omega, i3, i4, i5, fun k' k1 k2 k4 k3 d' => ?_⟩
            by_cases ek : k' = n
            · subst ek; exact w1 d'
            · exact i6 k' k1 (by omega) k4 k3 d'
        · rcases ih with ⟨i1, i2⟩ | ⟨k, i1, i2, i3, i4, i5, i6⟩
          · refine .inr ⟨n, by omega, Nat.lt_succ_self n, ⟨y, qs, er⟩, w2, ?_, fun k' k1 k2 k4 k3 d' => i2 k' k1 (by omega) k3 d'⟩
            rw [w4]
            show (fate _).lin = _
            rw [fate_lin]
            congr 1
            have := Whole.C58_insert_returns_previous E.whole (n := n) (Whole.Clean.sub C (by omega)) (a := x) (d := d) (v := v) w3 ?_
            · exact this.symm
            · have := w2 d
              rw [if_pos rfl] at this
              unfold wr at this
              rw [w3] at this
              exact this
          · rw [i5] at w1; cases w1
      · rw [h.other E (by omega) (by omega) hr]
        rcases ih with ⟨i1, i2⟩ | ⟨k, i1, i2, i3, i4, i5, i6⟩
        · refine .inl ⟨i1, fun k k1 k2 k3 => ?_⟩
          by_cases ek : k = n
          · subst ek; exact absurd k3 hr
          · exact i2 k k1 (by omega) k3
        · refine .inr ⟨k, i1, by omega, i3, i4, i5, fun k' k1 k2 k4 k3 => ?_⟩
          by_cases ek : k' = n
          · subst ek; exact absurd k3 hr
          · exact i6 k' k1 (by omega) k4 k3

/-- What is stored is the value of an insert under way. -/
theorem Exec.writer (E : Exec fixed strict τ β) {n : Nat} (C : Clean strict τ β n) {d : Bytes} {v : V} (h : stored τ β n d = some v) :
    ∃ i a, Runs β i n ∧ Open τ β i (.insert d v) a n := by
  rw [stored_eq] at h
  have K := E.know C (Nat.le_refl n)
  cases e : β n with
  | none => rw [(none_eq E e).2] at h; cases h
  | some x =>
    cases x with
    | call j o => rw [(call_eq E e).2.2.1] at h; cases h
    | run i y qs =>
      obtain ⟨_, _, _, _, g5⟩ := run_eq E e
      rw [g5] at h
      have P := E.phases C n (Nat.le_refl n) i
      cases ho : (τ n).op i with
      | get d' => rw [ho] at P; rw [(get_next (fixed := fixed) (strict := strict) K.ok ho P y qs).2 d] at h; cases h
      | insert d' v' =>
        rw [ho] at P
        rcases (put_next (fixed := fixed) (strict := strict) K ho P y qs).2 with ⟨w1, _⟩ | ⟨w1, w2, _⟩
        · rw [w1] at h; cases h
        · rw [w2] at h
          split at h
          · rename_i ed
            cases h
            subst ed
            have hb : ((τ n).ph i).over = false := by
              cases g : (τ n).ph i with
              | idle =>
                rw [show (next (τ n) i y qs).1 = none by unfold next; simp only [g]] at w2
                have := w2 d
                rw [if_pos rfl] at this; cases this
              | ret r => rw [g] at w1; cases w1
              | _ => rfl
            obtain ⟨a, ha⟩ := E.opened n i hb
            rw [ho] at ha
            exact ⟨i, a, ⟨y, qs, e⟩, ha⟩
          · cases h

end Verif.Ops
