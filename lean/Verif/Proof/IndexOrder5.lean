import Verif.Proof.IndexOrder4
set_option linter.unusedSimpArgs false
set_option linter.unusedVariables false
/-! Executions in which no descent passes validation at a locked node. -/
namespace Verif.Index
open Verif.Internode
variable {V : Type}

/-- Everything that is known of a state. -/
structure Full (main : Bool) (s : St V) : Prop where
  I : Inv main s
  O : OInv s.heap
  R : ∀ i, ROk s.heap (s.pc i)

/-- When thread `i` finds its node unchanged, the node is not locked. -/
def Calm (strict : Bool) (s : St V) (i : Nat) : Prop :=
  ∀ o r p w x, s.pc i = .chk o r p w x → changed strict (s.heap.node p) w = false → (s.heap.node p).locked = false

theorem calm_strict (s : St V) (i : Nat) : Calm true s i := by
  intro o r p w x _ h
  simp only [changed, Bool.true_and, Bool.or_eq_false_iff] at h
  exact h.2

theorem init_full (main : Bool) : Full main (init : St V) := by
  have A : ∀ n, Al (init : St V).heap n ↔ n = 1 := by
    intro n; simp only [Al, init]; omega
  refine ⟨init_inv main, ?_, fun i => trivial⟩
  constructor <;> try simp only [A]
  · rfl
  · rfl
  · intro n _ h; simp [init] at h
  · intro n _ h; simp [init] at h
  · intro n _ h; simp [init] at h
  · intro n _ h; simp [init] at h
  · intro a b ha hb _ _; rw [ha, hb]
  · intro a b _ _ h; simp [init] at h
  · intro n _ _; exact List.Pairwise.nil
  · intro n _ _ e he; simp [init] at he
  · intro a b ha hb _ _ h; rw [ha, hb] at h; omega
  · intro a b ha hb _ _ h; rw [ha, hb] at h; omega
  · intro a _ _ h; simp [init] at h

/-- One step of a thread, seen by everybody. -/
theorem Full.run {strict main : Bool} {s : St V} (F : Full main s) (i : Nat) (hc : Calm strict s i)
    (hf : ¬ Failed (act strict main s (.run i)) i) :
    Full main (act strict main s (.run i)) ∧ Legal s.heap (s.pc i) (act strict main s (.run i)).heap ((act strict main s (.run i)).pc i) ∧
    Eff s.heap (s.pc i) (act strict main s (.run i)).heap ((act strict main s (.run i)).pc i) := by
  have P := F.I.pre i
  have e2 : (act strict main s (.run i)).pc i = (step strict main s.heap (s.pc i)).2 := by simp only [act, upd_same]
  have hr : ∀ x, s.pc i = .par x → x.rounds < maxRounds := by
    intro x hx
    rcases Nat.lt_or_ge x.rounds maxRounds with g | g
    · exact g
    · exfalso; apply hf
      refine ⟨x.o, .rounds, ?_⟩
      rw [e2, hx]; simp only [step, if_pos g]
  have Q : Post main s.heap (s.pc i) (fun n => ∃ j, j ≠ i ∧ right (s.pc j) n) (fun n => ∃ j, j ≠ i ∧ busy (s.pc j) n)
      (step strict main s.heap (s.pc i)).1 (step strict main s.heap (s.pc i)).2 := by
    rcases step_post (strict := strict) P with ⟨x, h1, h2, _⟩ | h
    · have := hr x h1; omega
    · exact h
  have W := step_order (strict := strict) P F.O (F.R i) (fun o r p w x h => hc o r p w x h) hr
  have I' := F.I.post Q
  have e1 : act strict main s (.run i) = ⟨(step strict main s.heap (s.pc i)).1, upd s.pc i (step strict main s.heap (s.pc i)).2⟩ := rfl
  rw [e2, e1]
  refine ⟨⟨I', W.I, ?_⟩, Q.L, W.eff⟩
  intro j
  by_cases c : j = i
  · subst c; simp only [upd_same]; exact W.ok
  · simp only [upd_ne _ _ _ c]
    refine ROk.frame Q.L W.V W.N F.O ?_ (F.I.ok j) (F.R j)
    intro n hn hn'
    rcases (Q.L.new n hn').2.2 with g | g
    · exact c (F.I.excl j i n hn g)
    · exact g (F.I.hold j n hn)

/-- A call. -/
theorem act_call {strict main : Bool} (s : St V) (i : Nat) (o : Op V) :
    (act strict main s (.call i o) = s ∧ s.pc i ≠ .idle ∧ ∀ o x, s.pc i ≠ .done o x) ∨
    (act strict main s (.call i o) = ⟨s.heap, upd s.pc i (.climb o s.heap.root)⟩ ∧ (s.pc i = .idle ∨ ∃ a b, s.pc i = .done a b)) := by
  simp only [act]
  split
  · rename_i h; right; exact ⟨rfl, .inl h⟩
  · rename_i h; right; exact ⟨rfl, .inr ⟨_, _, h⟩⟩
  · rename_i h1 h2; left; exact ⟨rfl, h1, fun o x => h2 o x⟩

theorem Full.call {strict main : Bool} {s : St V} (F : Full main s) (i : Nat) (o : Op V) : Full main (act strict main s (.call i o)) := by
  rcases act_call (strict := strict) (main := main) s i o with ⟨e, _, _⟩ | ⟨e, h⟩
  · rw [e]; exact F
  · rw [e]
    refine ⟨F.I.call o h, F.O, ?_⟩
    intro j
    by_cases c : j = i
    · subst c; simp only [upd_same]; exact F.O.rootLo
    · simp only [upd_ne _ _ _ c]; exact F.R j

section
variable {strict main : Bool} {σ : Nat → St V} {α : Nat → Act V}

/-- In the first `N` steps no descent passes validation at a locked node. -/
def Clean (strict : Bool) (σ : Nat → St V) (α : Nat → Act V) (N : Nat) : Prop := ∀ n i, n < N → α n = .run i → Calm strict (σ n) i

theorem failed_mono (E : Exec strict main σ α) {m : Nat} : ∀ {d i}, Failed (σ m) i → Failed (σ (m + d)) i
  | 0, _, h => h
  | d + 1, i, h => by rw [← Nat.add_assoc, E.next]; exact failed_act (failed_mono E h) _

theorem not_failed (E : Exec strict main σ α) {n : Nat} (h : ∀ i, ¬ Failed (σ n) i) {m : Nat} (hm : m ≤ n) : ∀ i, ¬ Failed (σ m) i := by
  intro i hi
  have := failed_mono E (d := n - m) hi
  rw [show m + (n - m) = n by omega] at this
  exact h i this

theorem exec_full {N : Nat} (E : Exec strict main σ α) (C : Clean strict σ α N) (h : ∀ i, ¬ Failed (σ N) i) : ∀ n, n ≤ N → Full main (σ n)
  | 0, _ => by rw [E.start]; exact init_full main
  | n + 1, hn => by
    have F := exec_full E C h n (by omega)
    have h' := not_failed E h hn
    rw [E.next] at h' ⊢
    cases ha : α n with
    | call i o => exact F.call i o
    | run i => rw [ha] at h'; exact (F.run i (C n i (by omega) ha) (h' i)).1

theorem exec_legal {N : Nat} (E : Exec strict main σ α) (C : Clean strict σ α N) (h : ∀ i, ¬ Failed (σ N) i) (n : Nat) (hn : n < N) {l : Nat}
    (hl : Al (σ n).heap l) : Al (σ (n + 1)).heap l ∧ ((σ (n + 1)).heap.node l).ht = ((σ n).heap.node l).ht ∧
      ((σ (n + 1)).heap.node l).lo = ((σ n).heap.node l).lo := by
  have F := exec_full E C h n (by omega)
  have h' := not_failed E h (m := n + 1) (by omega)
  rw [E.next] at h' ⊢
  cases ha : α n with
  | call i o =>
    rcases act_call (strict := strict) (main := main) (σ n) i o with ⟨e, _, _⟩ | ⟨e, _⟩ <;> rw [e] <;> exact ⟨hl, rfl, rfl⟩
  | run i =>
    rw [ha] at h'
    have L := (F.run i (C n i hn ha) (h' i)).2.1
    exact ⟨hl.mono L.fresh, L.ht l hl, L.lo l hl⟩

theorem exec_mono {N : Nat} (E : Exec strict main σ α) (C : Clean strict σ α N) (h : ∀ i, ¬ Failed (σ N) i) (m : Nat) {l : Nat}
    (hl : Al (σ m).heap l) : ∀ d, m + d ≤ N → Al (σ (m + d)).heap l ∧ ((σ (m + d)).heap.node l).ht = ((σ m).heap.node l).ht ∧
      ((σ (m + d)).heap.node l).lo = ((σ m).heap.node l).lo
  | 0, _ => ⟨hl, rfl, rfl⟩
  | d + 1, hd => by
    obtain ⟨a, b, c⟩ := exec_mono E C h m hl d (by omega)
    obtain ⟨a', b', c'⟩ := exec_legal E C h (m + d) (by omega) a
    exact ⟨a', b'.trans b, c'.trans c⟩

/-- What has happened so far in a call of `get t` that began at step `n0`. -/
def Hist (σ : Nat → St V) (i n0 t m : Nat) : Pc V → Prop
  | .climb o _ => o = .get t
  | .stab o _ _ => o = .get t
  | .nk o _ _ _ => o = .get t
  | .cmp o _ _ _ _ _ => o = .get t
  | .chld o _ _ _ _ => o = .get t
  | .chk o _ _ _ _ => o = .get t
  | .chk2 o _ _ _ => o = .get t
  | .look o _ => o = .get t
  | .nxt o l => o = .get t ∧ ∃ k, n0 < k ∧ k < m ∧ (σ k).pc i = .look o l ∧ lookup t ((σ k).heap.node l).ents = none
  | .done o x => o = .get t ∧ ∃ k, n0 < k ∧ k < m ∧ ∀ v, x = some v ↔ Bound (σ k).heap t v
  | _ => False

theorem hist_step {N : Nat} (E : Exec strict main σ α) (C : Clean strict σ α N) (h : ∀ j, ¬ Failed (σ N) j) {i n0 t m : Nat} (hN : m < N) (h0 : n0 < m)
    (hi : InCall (σ m) i) (H : Hist σ i n0 t m ((σ m).pc i)) : Hist σ i n0 t (m + 1) ((σ (m + 1)).pc i) := by
  have F := exec_full E C h m (by omega)
  have weak : ∀ c : Pc V, Hist σ i n0 t m c → Hist σ i n0 t (m + 1) c := by
    intro c hc
    cases c with
    | nxt o l => obtain ⟨a, k, b1, b2, b3⟩ := hc; exact ⟨a, k, b1, by omega, b3⟩
    | done o l => obtain ⟨a, k, b1, b2, b3⟩ := hc; exact ⟨a, k, b1, by omega, b3⟩
    | _ => exact hc
  rw [E.next]
  by_cases ci : α m = .run i
  · rw [ci]
    simp only [act, upd_same]
    have ok := F.I.ok i
    have R := F.R i
    cases hp : (σ m).pc i with
    | climb o p => rw [hp] at H; simp only [step]; split <;> exact H
    | stab o r p =>
      rw [hp] at H
      have H : o = .get t := H
      subst H
      simp only [step]
      split
      · rfl
      · split <;> rfl
    | nk o r p w => rw [hp] at H; exact H
    | cmp o r p w a b =>
      rw [hp] at H
      simp only [step]
      split
      · split
        · exact H
        · split <;> exact H
      · exact H
    | chld o r p w k => rw [hp] at H; simp only [step]; split <;> exact H
    | chk o r p w k => rw [hp] at H; simp only [step]; split <;> exact H
    | chk2 o r p w => rw [hp] at H; simp only [step]; split <;> exact H
    | look o l =>
      rw [hp] at H ok R
      have H : o = .get t := H
      subst H
      simp only [step]
      split
      · rfl
      · have key : (Op.get t : Op V).key = t := rfl
        rw [key]
        split
        · rename_i v g
          refine ⟨rfl, m, h0, by omega, fun w => ?_⟩
          constructor
          · intro e; cases e; exact ⟨l, ok.1, ok.2, lookup_mem g⟩
          · rintro ⟨z, z1, z2, z3⟩
            have q1 : z = l := by
              rcases F.O.here ok.1 ok.2 R.1 z1 z2 z3 with q | ⟨q1, q2⟩
              · exact q
              · have := F.O.sep l z ok.1 z1 ok.2 z2 q1 _ (lookup_mem g)
                have k2 : ((σ m).heap.node z).lo ≤ t := q2
                simp only at this; omega
            subst q1
            rw [← g]; exact mem_lookup (F.O.asc z z1 z2) z3
        · rename_i g
          exact ⟨rfl, m, h0, by omega, hp, g⟩
    | nxt o l =>
      rw [hp] at H ok R
      obtain ⟨e, k, k1, k2, k3, k4⟩ := H
      subst e
      simp only [step]
      split
      · rfl
      · rename_i hn
        refine ⟨rfl, k, k1, by omega, fun v => ?_⟩
        constructor
        · intro e; cases e
        · rintro ⟨z, z1, z2, z3⟩
          exfalso
          have Fk := exec_full E C h k (by omega)
          have okk := Fk.I.ok i
          have Rk := Fk.R i
          rw [k3] at okk Rk
          rcases Fk.O.here okk.1 okk.2 Rk.1 z1 z2 z3 with q | ⟨q1, q2⟩
          · subst q; exact lookup_none k4 _ z3 rfl
          · have e1 : k + (m - k) = m := by omega
            have M1 := exec_mono E C h k okk.1 (m - k) (by omega)
            have M2 := exec_mono E C h k z1 (m - k) (by omega)
            rw [e1] at M1 M2
            obtain ⟨g1, g2⟩ := F.O.nx l z M1.1 M2.1 (by rw [M1.2.1]; exact okk.2) (by rw [M2.2.1]; exact z2) (by rw [M1.2.2, M2.2.2]; exact q1)
            rw [M2.2.2] at g2
            exact hn ⟨g1, Nat.le_trans g2 q2⟩
    | done o x => exact absurd hp (hi.2.1 o x)
    | idle => rw [hp] at H; exact absurd H id
    | adv o r k l => rw [hp] at H; exact absurd H id
    | sect o r l => rw [hp] at H; exact absurd H id
    | par x => rw [hp] at H; exact absurd H id
    | lck x p => rw [hp] at H; exact absurd H id
    | rechk x p => rw [hp] at H; exact absurd H id
    | ins x p todo => rw [hp] at H; exact absurd H id
    | fail o e => rw [hp] at H; exact absurd H id
  · have : (act strict main (σ m) (α m)).pc i = (σ m).pc i := by
      cases ha : α m with
      | call j o =>
        rcases act_call (strict := strict) (main := main) (σ m) j o with ⟨e, _, _⟩ | ⟨e, g⟩
        · rw [e]
        · rw [e]
          have : i ≠ j := by
            intro q; subst q
            rcases g with g | ⟨a, b, g⟩
            · exact hi.1 g
            · exact hi.2.1 a b g
          simp only [upd_ne _ _ _ this]
      | run j =>
        have : i ≠ j := by intro q; subst q; exact ci ha
        simp only [act, upd_ne _ _ _ this]
    rw [this]; exact weak _ H

theorem hist {N : Nat} (E : Exec strict main σ α) (C : Clean strict σ α N) (h : ∀ j, ¬ Failed (σ N) j) {i n0 t : Nat} (hcall : α n0 = .call i (.get t))
    (hid : (σ n0).pc i = .idle ∨ ∃ a b, (σ n0).pc i = .done a b) : ∀ m, n0 < m → m ≤ N →
    (∀ k, n0 < k → k < m → InCall (σ k) i) → Hist σ i n0 t m ((σ m).pc i)
  | 0, h0, _, _ => by omega
  | m + 1, h0, hm, hin => by
    rcases Nat.lt_or_ge n0 m with g | g
    · exact hist_step E C h (by omega) g (hin m g (by omega)) (hist E C h hcall hid m g (by omega) (fun k h1 h2 => hin k h1 (by omega)))
    · have e : m = n0 := by omega
      subst e
      rw [E.next, hcall]
      rcases act_call (strict := strict) (main := main) (σ m) i (.get t) with ⟨e, a, b⟩ | ⟨e, _⟩
      · rcases hid with g | ⟨x, y, g⟩
        · exact absurd g a
        · exact absurd g (b x y)
      · rw [e]; simp only [upd_same]; rfl

/-- What a step does to the bindings. -/
theorem exec_eff {N : Nat} (E : Exec strict main σ α) (C : Clean strict σ α N) (h : ∀ j, ¬ Failed (σ N) j) (n : Nat) (hn : n < N) :
    (∃ i t v x, α n = .run i ∧ InCall (σ n) i ∧ (σ (n + 1)).pc i = .done (.insert t v) x ∧ (∀ w, x = some w ↔ Bound (σ n).heap t w) ∧
      ∀ t' w, Bound (σ (n + 1)).heap t' w ↔ if t' = t then w = v else Bound (σ n).heap t' w) ∨
    ((∀ t w, Bound (σ (n + 1)).heap t w ↔ Bound (σ n).heap t w) ∧
      ∀ i t v x, (σ (n + 1)).pc i = .done (.insert t v) x → (σ n).pc i = .done (.insert t v) x) := by
  have F := exec_full E C h n (by omega)
  have h' := not_failed E h (m := n + 1) (by omega)
  rw [E.next] at h' ⊢
  cases ha : α n with
  | call i o =>
    right
    rcases act_call (strict := strict) (main := main) (σ n) i o with ⟨e, _, _⟩ | ⟨e, _⟩ <;> rw [e]
    · exact ⟨fun _ _ => Iff.rfl, fun j t v x g => g⟩
    · refine ⟨fun _ _ => Iff.rfl, fun j t v x g => ?_⟩
      by_cases c : j = i
      · subst c; simp only [upd_same] at g; cases g
      · simp only [upd_ne _ _ _ c] at g; exact g
  | run i =>
    rw [ha] at h'
    rcases (F.run i (C n i hn ha) (h' i)).2.2 with ⟨r, l, t, v, x, e1, e2, e3, e4⟩ | ⟨e1, e2⟩
    · left
      exact ⟨i, t, v, x, rfl, ⟨by rw [e1]; nofun, by rw [e1]; nofun, by rw [e1]; nofun⟩, e2, e3, e4⟩
    · right
      refine ⟨e1, fun j t v x g => ?_⟩
      by_cases c : j = i
      · subst c; rw [e2 t v x g]; exact g
      · simp only [act, upd_ne _ _ _ c] at g; exact g
end
end Verif.Index
