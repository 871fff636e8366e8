import Verif.Proof.ChainBound
import Verif.Proof.OpsExec
set_option linter.unusedSimpArgs false
set_option linter.unusedVariables false
/-! The slice in slot 0 of a leaf is its bound in every execution of calls. -/
namespace Verif.Ops
open Verif.Internode (upd upd_same upd_ne)
open Verif.Whole (LAct onLeaves onForest)
variable {V : Type} {fixed strict : Bool}

theorem assign_cases (b : Tree.Leaf V) (i t : Nat) (k : Key) (v : V) (n : Nat) :
    ∃ ik kl c sf, assign b i t k v n = .write i t ik kl c sf ∧ (ik = b.ikey t ∨ (n = 0 ∧ ik = k.ikey)) := by
  match n with
  | 0 => exact ⟨_, _, _, _, rfl, .inr ⟨rfl, rfl⟩⟩
  | 1 => exact ⟨_, _, _, _, rfl, .inl rfl⟩
  | 2 => exact ⟨_, _, _, _, rfl, .inl rfl⟩
  | n + 3 => exact ⟨_, _, _, _, rfl, .inl rfl⟩

/-- What is stored to a slot is stored by `assign`. -/
theorem next_write {s : St V} {i y : Nat} {qs : List Nat} {L j t ik kl : Nat} {c : Tree.Cell V} {sf : Option Spec.Bytes}
    (h : (next s i y qs).1 = some (.inLayer L (.write j t ik kl c sf))) :
    ∃ m x pos off n d v, s.op i = .insert d v ∧ s.ph i = .store L m x t pos off n ∧ j = i ∧
      (ik = ((s.w.f.layer L).leaf x).b.ikey t ∨ (n = 0 ∧ ik = (kat d m).ikey)) := by
  unfold next at h
  simp only at h
  cases e : s.ph i with
  | store L' m x t' pos off n =>
    rw [e] at h
    cases eo : s.op i with
    | get d => rw [eo] at h; cases h
    | insert d v =>
      rw [eo] at h
      simp only at h
      obtain ⟨ik', kl', c', sf', e1, e2⟩ := assign_cases ((s.w.f.layer L').leaf x).b i t' (keyAt (.insert d v) m) v n
      rw [e1] at h
      cases h
      exact ⟨m, x, pos, off, n, d, v, rfl, rfl, rfl, e2⟩
  | down L' m =>
    rw [e] at h
    simp only [down] at h
    exfalso
    split at h
    · cases h
    · cases h
    · split at h
      · simp only [decide, splitOr] at h
        repeat' split at h
        all_goals (cases h; done)
      · cases h
      · cases h
    · cases h
    · split at h <;> cases h
  | _ =>
    rw [e] at h
    exfalso
    simp only [spread] at h
    repeat' split at h
    all_goals (cases h; done)

variable {τ : Nat → St V} {β : Nat → Option (Act V)} {N : Nat}

/-- What happens to the leaves of a layer keeps the slice in slot 0. -/
theorem Exec.keeps0 (E : Exec fixed strict τ β) (C : Clean strict τ β N) {n : Nat} (hn : n < N) {L : Nat} {c : Chain.Act V}
    (h : (Whole.stores (tree τ) (moves τ β) n).bind (Forest.inner (τ n).w.f L) = some c) : Chain.Keeps0 ((τ n).w.f.layer L) c := by
  cases c with
  | write x t ik kl c sf =>
    intro ht
    subst ht
    obtain ⟨b, h1, h2⟩ := Option.bind_eq_some_iff.1 h
    obtain ⟨a, h3, h4⟩ := Option.bind_eq_some_iff.1 h1
    cases b with
    | convert L' x' t' d v qs =>
      simp only [Forest.inner] at h2
      split at h2 <;> cases h2
    | inLayer L' a' =>
      simp only [Forest.inner] at h2
      split at h2
      · rename_i g
        obtain ⟨rfl, g2, g3⟩ := g
        cases h2
        cases a with
        | convert L'' i t' d v qs =>
          simp only [onForest] at h4
          repeat' split at h4
          all_goals cases h4
        | inLayer L'' la =>
          simp only [onForest] at h4
          split at h4
          · obtain ⟨a2, h5, h6⟩ := Option.map_eq_some_iff.1 h4
            cases h6
            cases la with
            | write j t' ik' kl' c' sf' =>
              simp only [onLeaves] at h5
              obtain ⟨x', h7, h8⟩ := Option.map_eq_some_iff.1 h5
              cases h8
              cases e : β n with
              | none => rw [(none_eq E e).2] at h3; cases h3
              | some a =>
                cases a with
                | call j' o => rw [(call_eq E e).2.2.1] at h3; cases h3
                | run i y qs =>
                  rw [(run_eq E e).2.2.2.2] at h3
                  obtain ⟨m, x', pos, off, k, d, v, eo, ep, rfl, hik⟩ := next_write h3
                  have P := E.phases C n (by omega) j
                  rw [eo, ep] at P
                  have P : PutOk _ d v j (.store L' m x' 0 pos off k) := P
                  obtain ⟨ho, _, _, _, _, _, _, _, _, h0⟩ := P
                  have : some x' = some x := ho.owns.symm.trans h7
                  cases this
                  rcases hik with g | ⟨g1, g2⟩
                  · exact .inr g
                  · rw [g2]; exact h0 g1 rfl
            | _ =>
              exfalso
              simp only [onLeaves] at h5
              repeat' split at h5
              all_goals first | (cases h5; done) | (obtain ⟨x', h7, h8⟩ := Option.map_eq_some_iff.1 h5; cases h8)
          · cases h4
      · cases h2
  | _ => trivial

/-- In every layer slot 0 has the bound. -/
theorem Exec.bound (E : Exec fixed strict τ β) (C : Clean strict τ β N) {n : Nat} (hn : n ≤ N) {L : Nat} (hm : (τ n).w.f.made L = true) :
    Chain.Bound ((τ n).w.f.layer L) := by
  have F := E.whole.forest C
  have e : ∀ k, k ≤ N → Whole.upTo N (tree τ) k = (τ k).w.f := fun k hk => Whole.upTo_eq hk
  have hm' : (Whole.upTo N (tree τ) n).made L = true := by rw [e n hn]; exact hm
  have X := F.proj_exec hm'
  have Y := F.proj_steps hm'
  have B : ∀ k, k ≤ N → Chain.Bound (Forest.proj (Whole.upTo N (tree τ)) L k) := by
    intro k
    induction k with
    | zero => exact fun _ => X.1.bound
    | succ k ih =>
      intro hk
      have ih := ih (by omega)
      rw [Y k]
      split
      · exact ih
      · rename_i c hc
        refine ih.act (X.inv k) c ?_
        unfold Forest.steps at hc
        split at hc
        · rename_i hb
          have hmk := F.made_mono hb (Forest.born_made hm')
          rw [Forest.proj_eq hmk, e k (by omega)]
          rw [e k (by omega), show Whole.storesTo N (tree τ) (moves τ β) k = _ from if_pos (by omega)] at hc
          exact E.keeps0 C (by omega) hc
        · cases hc
  have := B n hn
  rw [Forest.proj_eq hm', e n hn] at this
  exact this

/-- The leaves of a layer stay in the chain and keep their bounds. -/
theorem Exec.bound_stays (E : Exec fixed strict τ β) (C : Clean strict τ β N) {m n : Nat} (hmn : m ≤ n) (hn : n ≤ N) {L x : Nat}
    (hm : (τ m).w.f.made L = true) (hl : ((τ m).w.f.layer L).live x = true) :
    (τ n).w.f.made L = true ∧ ((τ n).w.f.layer L).live x = true ∧ (((τ n).w.f.layer L).leaf x).lo = (((τ m).w.f.layer L).leaf x).lo := by
  have F := E.whole.forest C
  have e : ∀ k, k ≤ N → Whole.upTo N (tree τ) k = (τ k).w.f := fun k hk => Whole.upTo_eq hk
  have hm' : (Whole.upTo N (tree τ) m).made L = true := by rw [e m (by omega)]; exact hm
  have X := F.proj_exec hm'
  have Y := F.proj_steps hm'
  have pe : ∀ k, m ≤ k → k ≤ N → Forest.proj (Whole.upTo N (tree τ)) L k = (τ k).w.f.layer L := by
    intro k hk hN
    rw [Forest.proj_eq (F.made_mono hk hm'), e k hN]
  have hl' : (Forest.proj (Whole.upTo N (tree τ)) L m).live x = true := by rw [pe m (Nat.le_refl _) (by omega)]; exact hl
  refine ⟨by rw [← e n hn]; exact F.made_mono hmn hm', by rw [← pe n hmn hn]; exact X.live_mono hl' hmn, ?_⟩
  rw [← pe n hmn hn, ← pe m (Nat.le_refl _) (by omega)]
  clear hn
  obtain ⟨j, rfl⟩ := Nat.exists_eq_add_of_le hmn
  clear hmn
  induction j with
  | zero => rfl
  | succ j ih =>
    rw [← ih, show m + (j + 1) = m + j + 1 from rfl, Y (m + j)]
    split
    · rfl
    · exact Chain.lo_act (X.inv _) _ (X.live_mono hl' (by omega))

/-- The first leaf of a layer begins at 0. -/
theorem Exec.lowest (E : Exec fixed strict τ β) (C : Clean strict τ β N) {n : Nat} (hn : n ≤ N) {L : Nat} (hm : (τ n).w.f.made L = true) :
    (((τ n).w.f.layer L).leaf 1).lo = 0 := by
  have F := E.whole.forest C
  have e : ∀ k, k ≤ N → Whole.upTo N (tree τ) k = (τ k).w.f := fun k hk => Whole.upTo_eq hk
  have hm' : (Whole.upTo N (tree τ) n).made L = true := by rw [e n hn]; exact hm
  have X := F.proj_exec hm'
  have Y := F.proj_steps hm'
  have hl := (X.1.live 1).2 rfl
  rw [← e n hn, ← Forest.proj_eq hm']
  clear hn hm' hm
  induction n with
  | zero => exact X.1.low
  | succ k ih =>
    rw [Y k]
    split
    · exact ih
    · rw [Chain.lo_act (X.inv k) _ (X.live_mono hl (Nat.zero_le _))]; exact ih

end Verif.Ops
