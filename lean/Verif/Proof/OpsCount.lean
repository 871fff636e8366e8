import Verif.Proof.OpsHist
set_option linter.unusedSimpArgs false
set_option linter.unusedVariables false
/-! The counter. -/
namespace Verif.Ops
open Verif.Internode (upd upd_same upd_ne)
open Verif.Spec (Bytes)
variable {V : Type} {fixed strict : Bool} {τ : Nat → St V} {β : Nat → Option (Act V)} {N : Nat}

/-- An insert has stored a new key and has not counted it. -/
def Ph.owe : Ph V → Bool
  | .close _ _ .count | .drop _ _ .count | .count => true
  | _ => false

theorem lin_owe {p : Ph V} (h : p.lin = none) : p.owe = false ∧ counted p = 0 := by
  cases p with
  | close L x a => cases a <;> first | exact ⟨rfl, rfl⟩ | cases h
  | drop L x a => cases a <;> first | exact ⟨rfl, rfl⟩ | cases h
  | count => cases h
  | _ => exact ⟨rfl, rfl⟩

/-- A step that stores nothing: only the step that counts changes what is owed. -/
theorem owe_next {s : St V} {i y : Nat} {qs : List Nat} (h : (next s i y qs).2.lin = (s.ph i).lin) :
    (s.ph i = .count ∧ (next s i y qs).2.owe = false) ∨ (counted (s.ph i) = 0 ∧ (next s i y qs).2.owe = (s.ph i).owe) := by
  cases hl : (s.ph i).lin with
  | none =>
    rw [hl] at h
    have h1 := lin_owe h
    have h2 := lin_owe hl
    exact .inr ⟨h2.2, h1.1.trans h2.1.symm⟩
  | some r =>
    cases e : s.ph i with
    | close L x a =>
      right
      have : (next s i y qs).2 = .drop L x a := by unfold next; simp only [e]
      rw [this]
      cases a <;> exact ⟨rfl, rfl⟩
    | drop L x a =>
      right
      have : (next s i y qs).2 = a.ph := by unfold next; simp only [e]
      rw [this]
      cases a <;> exact ⟨rfl, rfl⟩
    | count =>
      left
      have : (next s i y qs).2 = .ret none := by unfold next; simp only [e]
      rw [this]
      exact ⟨rfl, rfl⟩
    | ret r =>
      right
      have : (next s i y qs).2 = .ret r := by unfold next; simp only [e]
      rw [this]
      exact ⟨rfl, rfl⟩
    | _ => rw [e] at hl; cases hl

/-- The keys of the map, the threads that owe, and the counter. -/
structure Tally (τ : Nat → St V) (β : Nat → Option (Act V)) (n : Nat) (ks : List Bytes) (ts : List Nat) : Prop where
  keys : ks.Nodup
  threads : ts.Nodup
  mem : ∀ d, d ∈ ks ↔ map τ β d n ≠ none
  owe : ∀ i, i ∈ ts ↔ ((τ n).ph i).owe = true
  sum : ks.length = (τ n).count + ts.length

theorem Tally.still {n : Nat} {ks : List Bytes} {ts : List Nat} (h : Tally τ β n ks ts) (hs : ∀ d, stored τ β n d = none)
    (hp : ∀ i, ((τ (n + 1)).ph i).owe = ((τ n).ph i).owe) (hc : (τ (n + 1)).count = (τ n).count) : Tally τ β (n + 1) ks ts :=
  ⟨h.keys, h.threads, fun d => by rw [map_still (hs d)]; exact h.mem d, fun i => by rw [hp]; exact h.owe i, by rw [hc]; exact h.sum⟩

/-- The counter is the number of keys, less those that are still to be counted. -/
theorem Exec.tally (E : Exec fixed strict τ β) (C : Clean strict τ β N) : ∀ n, n ≤ N → ∃ ks ts, Tally τ β n ks ts
  | 0, _ => by
    refine ⟨[], [], List.nodup_nil, List.nodup_nil, fun d => ?_, fun i => ?_, ?_⟩
    · show _ ↔ none ≠ none
      simp
    · rw [E.start.idle i]; simp [Ph.owe]
    · rw [E.start.count]; rfl
  | n + 1, hn => by
    obtain ⟨ks, ts, T⟩ := E.tally C n (by omega)
    have K := E.know C (n := n) (by omega)
    cases e : β n with
    | none =>
      obtain ⟨h1, h2⟩ := none_eq E e
      exact ⟨ks, ts, T.still (fun d => by rw [stored_eq, h2]; rfl) (fun i => by rw [h1]) (by rw [h1])⟩
    | some a =>
      cases a with
      | call j o =>
        obtain ⟨h1, h2, h3, h4⟩ := call_eq E e
        refine ⟨ks, ts, T.still (fun d => by rw [stored_eq, h3]; rfl) (fun i => ?_) h2⟩
        rcases h4 with ⟨_, h4⟩ | ⟨h4, _, h5⟩
        · rw [h4]
        · rw [h5]
          by_cases hij : i = j
          · subst hij
            rw [upd_same]
            cases g : (τ n).ph i <;> first | rfl | (rw [g] at h4; cases h4)
          · rw [upd_ne _ _ _ hij]
      | run j y qs =>
        obtain ⟨h1, h2, h3, h4, h5⟩ := run_eq E e
        have P := E.phases C n (by omega) j
        have hp : ∀ i, i ≠ j → (τ (n + 1)).ph i = (τ n).ph i := fun i g => by rw [h3, upd_ne _ _ _ g]
        have hj : (τ (n + 1)).ph j = (next (τ n) j y qs).2 := by rw [h3, upd_same]
        have same : (∀ d, stored τ β n d = none) → (counted ((τ n).ph j) = 0 ∧ (next (τ n) j y qs).2.owe = ((τ n).ph j).owe) →
            ∃ ks ts, Tally τ β (n + 1) ks ts := by
          intro g1 g2
          refine ⟨ks, ts, T.still g1 (fun i => ?_) (by rw [h4, g2.1]; rfl)⟩
          by_cases hij : i = j
          · subst hij; rw [hj]; exact g2.2
          · rw [hp i hij]
        cases ho : (τ n).op j with
        | get d =>
          rw [ho] at P
          obtain ⟨Q, w⟩ := get_next (fixed := fixed) (strict := strict) K.ok ho P y qs
          refine same (fun d' => by rw [stored_eq, h5]; exact w d') ?_
          have no : ∀ {s : Whole.St V} {p : Ph V}, GetOk s j p → p.owe = false ∧ counted p = 0 := by
            intro s p g
            cases p <;> first | exact ⟨rfl, rfl⟩ | exact absurd g id
          exact ⟨(no P).2, (no Q).1.trans (no P).1.symm⟩
        | insert d v =>
          rw [ho] at P
          rcases (put_next (fixed := fixed) (strict := strict) K ho P y qs).2 with ⟨w1, w2⟩ | ⟨w1, w2, x, L, z, w3, w4⟩
          · have g1 : ∀ d, stored τ β n d = none := fun d' => by rw [stored_eq, h5]; exact w1 d'
            rcases owe_next w2 with ⟨c1, c2⟩ | c
            · have hm : j ∈ ts := (T.owe j).2 (by rw [c1]; rfl)
              refine ⟨ks, ts.erase j, T.keys, T.threads.erase j, fun d => by rw [map_still (g1 d)]; exact T.mem d, fun i => ?_, ?_⟩
              · rw [T.threads.mem_erase_iff]
                by_cases hij : i = j
                · subst hij; rw [hj, c2]; simp
                · rw [hp i hij, ← T.owe i]; simp [hij]
              · have hl : ts.length ≠ 0 := by
                  intro g; rw [List.length_eq_zero_iff.1 g] at hm; cases hm
                rw [h4, c1, List.length_erase_of_mem hm, T.sum]
                show _ = _ + 1 + _
                omega
            · exact same g1 c
          · have ow := lin_owe w1
            have hm : j ∉ ts := fun g => by rw [(T.owe j).1 g] at ow; cases ow.1
            have hs : ∀ d', stored τ β n d' = if d' = d then some v else none := fun d' => by rw [stored_eq, h5]; exact w2 d'
            have hr : map τ β d n = Forest.returned (τ n).w.f x := by
              refine Whole.C58_insert_returns_previous E.whole (n := n) (Whole.Clean.sub C (by omega)) (a := x) (d := d) (v := v) ?_ ?_
              · unfold Whole.stores; rw [h5]; exact w3
              · have := w2 d
                rw [if_pos rfl] at this
                unfold wr at this
                rw [w3] at this
                exact this
            have m1 : ∀ d', map τ β d' (n + 1) ≠ none ↔ d' = d ∨ map τ β d' n ≠ none := by
              intro d'
              by_cases hd : d' = d
              · subst hd
                rw [map_stored (by rw [hs, if_pos rfl])]; simp
              · rw [map_still (by rw [hs, if_neg hd])]; simp [hd]
            rw [← hr] at w4
            cases hv : map τ β d n with
            | none =>
              rw [hv] at w4
              refine ⟨d :: ks, j :: ts, ?_, ?_, fun d' => ?_, fun i => ?_, ?_⟩
              · exact List.nodup_cons.2 ⟨fun g => (T.mem d).1 g hv, T.keys⟩
              · exact List.nodup_cons.2 ⟨hm, T.threads⟩
              · rw [m1, List.mem_cons, T.mem]
              · rw [List.mem_cons]
                by_cases hij : i = j
                · subst hij; rw [hj, w4]; simp [fate, Ph.owe]
                · rw [hp i hij, ← T.owe i]; simp [hij]
              · rw [h4, ow.2, List.length_cons, List.length_cons, T.sum]; omega
            | some r =>
              rw [hv] at w4
              refine ⟨ks, ts, T.keys, T.threads, fun d' => ?_, fun i => ?_, by rw [h4, ow.2]; exact T.sum⟩
              · rw [m1, T.mem]
                constructor
                · exact .inr
                · rintro (rfl | g)
                  · rw [hv]; simp
                  · exact g
              · by_cases hij : i = j
                · subst hij; rw [hj, w4]
                  simp only [fate, Ph.owe]
                  simp [hm]
                · rw [hp i hij]; exact T.owe i

end Verif.Ops
