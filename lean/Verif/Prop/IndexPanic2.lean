import Verif.Prop.IndexPanic
import Verif.Proof.IndexAfter2
/-!
# C77: calls after a panic, as long as no node has to be split

Statements about the machine of `Model/IndexRace.lean` (one layer, keys with different slices, any number of threads).
-/
namespace Verif.Index
variable {V : Type}

/-- At step `n` an insert of thread `i` panics, as the first in the execution and while no other thread splits a node. -/
structure Panic (σ : Nat → St V) (i n : Nat) : Prop where
  first : ∀ j, ¬ Failed (σ n) j
  fails : ∃ o e, (σ (n + 1)).pc i = .fail o e
  alone : ∀ j, j ≠ i → holds ((σ n).pc j) = []

/-- Each call that returns after step `n` and before step `N` is right: a lookup returns what the map held for the key at one moment
between its call and its return, and an insert returns what the map held for its key when it put its value there. -/
def RightFrom (σ : Nat → St V) (α : Nat → Act V) (n N : Nat) : Prop :=
  (∀ j t x n0 k, n < k → k < N → CallRet σ α j (.get t) x n0 k → ∃ m, n0 < m ∧ m ≤ k ∧ x = mapAt σ α m t) ∧
  (∀ j t v x n0 k, n < k → k < N → CallRet σ α j (.insert t v) x n0 k → x = mapAt σ α k t ∧
    ∀ t', mapAt σ α (k + 1) t' = if t' = t then some v else mapAt σ α k t')

theorem opt_ext {a b : Option V} (h : ∀ v, a = some v ↔ b = some v) : a = b := by
  cases a with
  | none =>
    cases b with
    | none => rfl
    | some v => exact (h v).2 rfl
  | some v => exact ((h v).1 rfl).symm

section
variable {strict main : Bool} {σ : Nat → St V} {α : Nat → Act V}

theorem Panic.quiet (E : Exec strict main σ α) {i n : Nat} (C : NoLockedPass strict σ α n) (P : Panic σ i n) :
    Quietly (σ (n + 1)) ∧ (∀ t v, mapAt σ α (n + 1) t = some v ↔ Bound (σ (n + 1)).heap t v) ∧ mapAt σ α (n + 1) = mapAt σ α n ∧
    wants ((σ (n + 1)).pc i) = none ∧ (∀ j, j ≠ i → (σ (n + 1)).pc j = (σ n).pc j) ∧ α n = .run i ∧
    ∀ z, Al (σ n).heap z → Al (σ (n + 1)).heap z ∧ ((σ (n + 1)).heap.node z).ht = ((σ n).heap.node z).ht ∧
      ((σ (n + 1)).heap.node z).lo = ((σ n).heap.node z).lo := by
  obtain ⟨h, ⟨o, e, hf⟩, hq⟩ := P
  obtain ⟨_, ha, x, hx, hrd⟩ := C49_split_never_fails_partial E n h i o e hf
  have F := exec_full E C.clean h n (Nat.le_refl _)
  have hs : step strict main (σ n).heap (.par x) = (((σ n).heap.mod x.y Node.unlock).mod x.l Node.unlock, .fail x.o .rounds) := by
    simp only [step]
    rw [if_pos (by simp only [maxRounds]; exact hrd)]
  have hs1 : σ (n + 1) = ⟨((σ n).heap.mod x.y Node.unlock).mod x.l Node.unlock, Verif.Internode.upd (σ n).pc i (.fail x.o .rounds)⟩ := by
    rw [E.next n, ha]; simp only [act, hx, hs]
  obtain ⟨K, B⟩ := Calmed.of_full F hx hq
  have em : mapAt σ α (n + 1) = mapAt σ α n := by
    rw [mapAt, ha]
    simp only
    exact put1_other (.inr fun t v y g => by rw [hf] at g; cases g)
  refine ⟨⟨by rw [hs1]; exact K, fun j => ?_⟩, fun t v => ?_, em, by rw [hf]; rfl, fun j c => ?_, ha, fun z hz => ?_⟩
  · rw [hs1]
    by_cases c : j = i
    · subst c; simp only [Verif.Internode.upd_same]; trivial
    · simp only [Verif.Internode.upd_ne _ _ _ c]
      exact Goes.of_full F hx (hq j c) K
  · rw [em, bound_map E C.clean h n (Nat.le_refl _) t v, hs1, B t v]
  · rw [hs1]; simp only [Verif.Internode.upd_ne _ _ _ c]
  · rw [hs1]
    refine ⟨hz, ?_⟩
    simp only [mod_node]
    by_cases c1 : z = x.l
    · subst c1
      by_cases c2 : x.l = x.y
      · simp [← c2]
      · simp [c2]
    · by_cases c2 : z = x.y
      · subst c2; simp [c1]
      · simp [c1, c2]

theorem quiet_map (E : Exec strict main σ α) {a N : Nat} (Q : Quietly (σ a)) (hm : ∀ t v, mapAt σ α a t = some v ↔ Bound (σ a).heap t v)
    (hh : ∀ m, a < m → m ≤ N → ∀ j, holds ((σ m).pc j) = []) :
    ∀ d, a + d ≤ N → ∀ t v, mapAt σ α (a + d) t = some v ↔ Bound (σ (a + d)).heap t v
  | 0, _ => hm
  | d + 1, hd => by
    have ih := quiet_map E Q hm hh d (by omega)
    have Qd := (goes_exec E Q d (fun m a b => hh m a (by omega))).1
    intro t v
    rw [← Nat.add_assoc, mapAt]
    rcases (goes_one E Qd (hh _ (by omega) (by omega))).2.2 with ⟨i, ha, W, hj⟩ | ⟨i, o, ha, e, _⟩
    · simp only [ha]
      rcases W.E with ⟨r, l, t', v', x, e1, e2, _, e⟩ | ⟨e, e2⟩
      · rw [put1_ret (fun a b g => by rw [e1] at g; cases g) e2, e t v]
        simp only
        split
        · constructor
          · intro g; cases g; rfl
          · intro g; rw [g]
        · exact ih t v
      · rw [e t v, ← ih t v, put1_other]
        by_cases c : ∃ t v x, (σ (a + d + 1)).pc i = .done (.insert t v) x
        · obtain ⟨t, v, x, c⟩ := c
          exact .inl ⟨_, _, (e2 _ _ _ c).trans c⟩
        · exact .inr fun t v x g => c ⟨t, v, x, g⟩
    · simp only [ha]
      rw [ih t v, e]

/-- C77 as long as nothing is split: an insert panics at step `n`, as the first of the execution and while no other thread splits a node, and up to
step `N` no call splits a node.  Then all calls that return after the panic return what they should, also those under way at that moment, and no other thread panics.  Up to the panic no descent has
found a locked internode unchanged (finding 9).  Missing: later inserts that split can panic (`C77_panic_repeats`). -/
theorem C77_no_split_partial (E : Exec strict main σ α) {i n N : Nat} (C : NoLockedPass strict σ α n) (P : Panic σ i n)
    (hh : ∀ m, n < m → m ≤ N → ∀ j, holds ((σ m).pc j) = []) :
    RightFrom σ α n N ∧ ∀ m, m ≤ N → ∀ j, j ≠ i → ¬ Failed (σ m) j := by
  obtain ⟨Q, hm, _, _, hpc, hrun, hal⟩ := P.quiet E C
  have hh' : ∀ m, n + 1 < m → m ≤ N → ∀ j, holds ((σ m).pc j) = [] := fun m a b => hh m (by omega) b
  have hmap : ∀ m, n < m → m ≤ N → ∀ t v, mapAt σ α m t = some v ↔ Bound (σ m).heap t v := by
    intro m m1 m2
    have := quiet_map E Q hm hh' (m - (n + 1)) (by omega)
    rw [show n + 1 + (m - (n + 1)) = m by omega] at this
    exact this
  have hQ' : ∀ m, n < m → m ≤ N → Quietly (σ m) ∧ Like (σ (n + 1)).heap (σ m).heap := by
    intro m m1 m2
    have := goes_exec E Q (m - (n + 1)) (fun q a b => hh' q a (by omega))
    rw [show n + 1 + (m - (n + 1)) = m by omega] at this
    exact this
  have hQ : ∀ m, n < m → m ≤ N → Quietly (σ m) := fun m a b => (hQ' m a b).1
  have past : ∀ k, n < k → k ≤ N → ∀ q, q ≤ k → OInv (σ q).heap ∧ ∀ z, Al (σ q).heap z → Al (σ k).heap z ∧
      ((σ k).heap.node z).ht = ((σ q).heap.node z).ht ∧ ((σ k).heap.node z).lo = ((σ q).heap.node z).lo := by
    intro k hk hN q hq
    obtain ⟨_, Lk⟩ := hQ' k hk hN
    rcases Nat.lt_or_ge n q with g | g
    · obtain ⟨Qq, Lq⟩ := hQ' q g (by omega)
      refine ⟨Qq.C.O, fun z hz => ?_⟩
      rw [Lq.al] at hz
      exact ⟨by rw [Lk.al]; exact hz, by rw [Lk.ht, Lq.ht], by rw [Lk.lo, Lq.lo]⟩
    · refine ⟨(exec_full E C.clean P.first q g).O, fun z hz => ?_⟩
      obtain ⟨a1, a2, a3⟩ := exec_mono E C.clean P.first q hz (n - q) (by omega)
      rw [show q + (n - q) = n by omega] at a1 a2 a3
      obtain ⟨b1, b2, b3⟩ := hal z a1
      exact ⟨by rw [Lk.al]; exact b1, by rw [Lk.ht, b2, a2], by rw [Lk.lo, b3, a3]⟩
  refine ⟨⟨?_, ?_⟩, ?_⟩
  · intro j t x n0 k hn hk R
    have hlt := R.lt
    have hall : ∀ m, m ≤ k → ∀ v, mapAt σ α m t = some v ↔ Bound (σ m).heap t v := by
      intro m hm v
      rcases Nat.lt_or_ge n m with g | g
      · exact hmap m g (by omega) t v
      · exact bound_map E C.clean P.first m g t v
    have fin : (∃ b, n + 1 ≤ b ∧ n0 < b ∧ b ≤ k ∧ Been σ n0 t b ((σ b).pc j)) → ∃ m, n0 < m ∧ m ≤ k ∧ x = mapAt σ α m t := by
      rintro ⟨b, b1, b2, b3, B⟩
      obtain ⟨m, m1, m2, m3⟩ := goes_get E Q hh' b1 b2 B hk b3 (fun m a b => R.during m (by omega) b) R.run R.ret
        (fun q _ a => past k hn (by omega) q a)
      exact ⟨m, m1, m2, opt_ext fun v => by rw [m3 v, hall m m2 v]⟩
    apply fin
    rcases Nat.lt_trichotomy n n0 with g | g | g
    · exact ⟨n0 + 1, by omega, by omega, by omega, Been.start E R.call R.free⟩
    · have := R.call
      rw [← g, hrun] at this; cases this
    · have hji : j ≠ i := by
        rintro rfl
        obtain ⟨o, e, hf⟩ := P.fails
        exact (R.during (n + 1) (by omega) (by omega)).2.2 o e hf
      have Hn := hist E C.clean P.first R.call R.free n g (Nat.le_refl _) (fun q a b => R.during q a (by omega))
      have hin := R.during n g (by omega)
      refine ⟨n + 1, Nat.le_refl _, by omega, by omega, ?_⟩
      rw [hpc j hji]
      revert Hn hin
      unfold InCall
      generalize hcj : (σ n).pc j = c
      intro Hn hin
      refine ⟨?_, fun l e => ?_⟩
      · cases c with
        | nxt o l => exact Hn.1
        | done o y => exact absurd rfl (hin.2.1 _ _)
        | _ => exact Hn
      · subst e
        obtain ⟨_, q, q1, q2, q3, q4⟩ := Hn
        have ok := (exec_full E C.clean P.first q (by omega)).I.ok j
        rw [q3] at ok
        exact ⟨q, q1, by omega, ok.1, q4⟩
  · intro j t v x n0 k hn hk R
    have hlt := R.lt
    have hin := R.during k R.lt (Nat.le_refl _)
    constructor
    · rcases (goes_one E (hQ k (by omega) (by omega)) (hh _ (by omega) (by omega))).2.2 with ⟨q, ha, W, _⟩ | ⟨q, o, ha, _, _⟩
      · rw [R.run] at ha; cases ha
        rcases W.E with ⟨r, l, t', v', x', e1, e2, e3, _⟩ | ⟨_, e⟩
        · rw [R.ret] at e2; cases e2
          exact opt_ext fun w => by rw [e3 w, hmap k (by omega) (by omega) t w]
        · exact absurd ((e _ _ _ R.ret).trans R.ret) (hin.2.1 _ _)
      · rw [R.run] at ha; cases ha
    · intro t'
      rw [mapAt]
      simp only [R.run, put1_ret hin.2.1 R.ret]
  · have late : ∀ d, n + 1 + d ≤ N → ∀ j, j ≠ i → ¬ Failed (σ (n + 1 + d)) j := by
      intro d
      induction d with
      | zero =>
        rintro hd j hj ⟨o, e, hf⟩
        have hn := E.next n
        obtain ⟨o', e', hf'⟩ := P.fails
        obtain ⟨_, ha, _⟩ := C49_split_never_fails_partial E n P.first i o' e' hf'
        rw [ha] at hn
        rw [Nat.add_zero, hn] at hf
        simp only [act, Verif.Internode.upd_ne _ _ _ hj] at hf
        exact P.first j ⟨o, e, hf⟩
      | succ d ih =>
        rintro hd j hj ⟨o, e, hf⟩
        rw [← Nat.add_assoc] at hf
        rcases (goes_one E (hQ (n + 1 + d) (by omega) (by omega)) (hh _ (by omega) (by omega))).2.2 with ⟨q, ha, W, hq⟩ | ⟨q, o', ha, _, g⟩
        · by_cases c : j = q
          · subst c
            exact ih (by omega) j hj ⟨o, e, W.X o e hf⟩
          · rw [hq j c] at hf
            exact ih (by omega) j hj ⟨o, e, hf⟩
        · rcases g with g | ⟨_, g⟩
          · rw [g] at hf
            exact ih (by omega) j hj ⟨o, e, hf⟩
          · rw [g] at hf
            by_cases c : j = q
            · subst c; simp only [Verif.Internode.upd_same] at hf; cases hf
            · simp only [Verif.Internode.upd_ne _ _ _ c] at hf
              exact ih (by omega) j hj ⟨o, e, hf⟩
    intro m m1 j hj
    rcases Nat.lt_or_ge n m with g | g
    · have := late (m - (n + 1)) (by omega) j hj
      rw [show n + 1 + (m - (n + 1)) = m by omega] at this
      exact this
    · rintro f
      obtain ⟨d, rfl⟩ := Nat.exists_eq_add_of_le g
      have stays : ∀ d, Failed (σ (m + d)) j := by
        intro d
        induction d with
        | zero => exact f
        | succ d ih => rw [← Nat.add_assoc, E.next]; exact failed_act ih _
      exact P.first j (stays d)

/-- C77 for lookups and updates: after the panic the keys that are there can be read and given new values for ever.  An insert panics at step `n`, as the
first of the execution and while no other thread splits a node, and the inserts of other threads that are under way at that moment or called later are for keys that the
map holds then.  All calls that return after the panic return what they should, no other thread panics, and every lookup whose thread keeps running returns.  Up to the panic
no descent has found a locked internode unchanged (finding 9).  Missing: inserts of new keys can panic (`C77_panic_repeats`). -/
theorem C77_updates_go_on_partial (E : Exec strict main σ α) {i n : Nat} (C : NoLockedPass strict σ α n) (P : Panic σ i n)
    (hu : ∀ j t, j ≠ i → wants ((σ n).pc j) = some t → mapAt σ α n t ≠ none)
    (hi : ∀ m, n < m → ∀ j t v, α m = .call j (.insert t v) → mapAt σ α n t ≠ none) :
    (∀ N, RightFrom σ α n N) ∧ (∀ m j, j ≠ i → ¬ Failed (σ m) j) ∧
    ∀ j t n0, n < n0 → ((σ n0).pc j = .idle ∨ ∃ a b, (σ n0).pc j = .done a b) → α n0 = .call j (.get t) → (∀ m, ∃ k, m ≤ k ∧ α k = .run j) →
      ∃ k x, CallRet σ α j (.get t) x n0 k := by
  obtain ⟨Q, hm, em, hw, hpc, _, _⟩ := P.quiet E C
  have bd : ∀ t, mapAt σ α n t ≠ none → ∃ w, Bound (σ (n + 1)).heap t w := by
    intro t this
    rw [← em] at this
    cases hv : mapAt σ α (n + 1) t with
    | none => exact absurd hv this
    | some w => exact ⟨w, (hm t w).1 hv⟩
  have U := goes_updates E Q (fun j t g => by
    by_cases c : j = i
    · subst c; rw [hw] at g; cases g
    · rw [hpc j c] at g; exact bd t (hu j t c g)) (fun m a j t v g => bd t (hi m (by omega) j t v g))
  have hh : ∀ m, n < m → ∀ j, holds ((σ m).pc j) = [] := by
    intro m hm
    have := (U (m - (n + 1))).1
    rw [show n + 1 + (m - (n + 1)) = m by omega] at this
    exact this
  refine ⟨fun N => (C77_no_split_partial E C P (N := N) fun m a _ => hh m a).1, fun m => (C77_no_split_partial E C P (N := m) fun m a _ => hh m a).2 m (Nat.le_refl _), ?_⟩
  intro j t n0 hn hj hc hr
  have hcl : (σ (n0 + 1)).pc j = .climb (.get t) (σ n0).heap.root := by
    rw [E.next n0, hc]
    rcases act_call (strict := strict) (main := main) (σ n0) j (.get t) with ⟨_, a, b⟩ | ⟨g, _⟩
    · rcases hj with g | ⟨x, y, g⟩
      · exact absurd g a
      · exact absurd g (b x y)
    · rw [g]; simp only [Verif.Internode.upd_same]
  obtain ⟨k, y, k1, k2, k3, k4⟩ := goes_returns E Q (fun m a => hh m (by omega)) hr (t := t) _ (n0 + 1) (by omega) (by rw [hcl]; rfl) (by rw [hcl]; trivial)
    (Nat.lt_succ_self _)
  refine ⟨k, y, ⟨by omega, hj, hc, fun m m1 m2 => ?_, k2, k4⟩⟩
  have f := k3 m m1 m2
  exact ⟨fun g => by rw [g] at f; exact f, fun a b g => by rw [g] at f; exact f, fun a b g => by rw [g] at f; exact f⟩
end

/-! ## The hypotheses can be met -/

set_option maxRecDepth 100000 in
theorem lim_has : ((2 ^ 40, 2 ^ 40) : Nat × Nat) ∈ (limState.heap.node 2).ents := by decide +kernel

/-- The hypotheses of `C77_updates_go_on_partial`, and by its proof those of `C77_no_split_partial`, are met: the insert of thread 0 panics, then thread 1
gives a new value to a key that thread 0 inserted before and thread 2 looks the key up, and both keep running. -/
theorem C77_witness_update : ∃ (σ : Nat → St Nat) (α : Nat → Act Nat) (n : Nat), Exec false true σ α ∧ NoLockedPass false σ α n ∧ Panic σ 0 n ∧
    (∀ j t, j ≠ 0 → wants ((σ n).pc j) = some t → mapAt σ α n t ≠ none) ∧
    (∀ m, n < m → ∀ j t v, α m = .call j (.insert t v) → mapAt σ α n t ≠ none) ∧
    ((σ (n + 1)).pc 1 = .idle ∨ ∃ a b, (σ (n + 1)).pc 1 = .done a b) ∧ α (n + 1) = .call 1 (.insert (2 ^ 40) 7) ∧
    (σ (n + 2)).pc 2 = .idle ∧ α (n + 2) = .call 2 (.get (2 ^ 40)) ∧ (∀ m, ∃ k, m ≤ k ∧ α k = .run 1) ∧ ∀ m, ∃ k, m ≤ k ∧ α k = .run 2 := by
  obtain ⟨h, c, c1, T, p, a, n, m, d, R, hc, G, _, hS, h64, ho, _, _⟩ := lim_last
  obtain ⟨l, _, h2, h3⟩ := R.list'
  let L : List (Act Nat) := l ++ [Act.run 0, Act.call 1 (.insert (2 ^ 40) 7), Act.call 2 (.get (2 ^ 40))]
  let f : Nat → Act Nat := fun n => if n % 2 = 0 then .run 1 else .run 2
  let α : Nat → Act Nat := fun n => L.getD n (f n)
  let β : Nat → Act Nat := fun n => L.getD n (.run 1)
  have hL : L.length = l.length + 3 := by simp [L]
  have ab : ∀ k, k < L.length → α k = β k := by
    intro k hk
    simp only [α, β, List.getD, List.getElem?_eq_getElem hk, Option.getD_some]
  have tr : ∀ k, k ≤ L.length → trace false true α k = trace false true β k := by
    intro k
    induction k with
    | zero => intro _; rfl
    | succ k ih => intro hk; rw [trace, trace, ih (by omega), ab k (by omega)]
  have hl0 : L.take l.length = l := by simp [L]
  have e : trace false true α l.length = two (.par c) h c1 := by
    rw [tr _ (by omega), trace_run _ _ _ (by omega), hl0, h2]
  have a0 : α l.length = .run 0 := by rw [ab _ (by omega)]; simp [β, L, List.getD]
  have a1 : α (l.length + 1) = .call 1 (.insert (2 ^ 40) 7) := by rw [ab _ (by omega)]; simp [β, L, List.getD]
  have a2 : α (l.length + 2) = .call 2 (.get (2 ^ 40)) := by rw [ab _ (by omega)]; simp [β, L, List.getD]
  have a3 : ∀ m, l.length + 2 < m → α m = f m := by
    intro m hm
    simp only [α, List.getD]
    rw [List.getElem?_eq_none (by omega)]; rfl
  have e1 : trace false true α (l.length + 1) = two (.fail c.o .rounds) ((h.mod c.y Node.unlock).mod c.l Node.unlock) c1 := by
    have hs : step false true h (.par c) = ((h.mod c.y Node.unlock).mod c.l Node.unlock, .fail c.o .rounds) := by
      simp only [step]
      rw [if_pos (by simp only [maxRounds]; exact h64)]
    rw [trace, e, a0]
    simp only [act, two_pc0, two_heap, hs]
    simp only [two, St.mk.injEq, true_and]
    funext i
    simp only [Verif.Internode.upd]
    by_cases i0 : i = 0
    · subst i0; simp
    · simp [i0]
  have E : Exec false true (trace false true α) α := trace_exec false true _
  have N : NoLockedPass false (trace false true α) α l.length := by
    intro n hn i o r p w x ha hp _
    have := passL_get (.run 1) L init (by
      show passL init (l ++ _) = true
      rw [passL_append, h3, h2]
      simp [passL, passes]) n (by omega)
    rw [← trace_run _ _ _ (by omega)] at this
    change passes (trace false true β n) (β n) = true at this
    rw [← tr n (by omega), ← ab n (by omega), ha] at this
    simp only [passes, hp] at this
    simpa using this
  have P : Panic (trace false true α) 0 l.length := by
    refine ⟨?_, ⟨c.o, .rounds, by rw [e1, two_pc0]⟩, ?_⟩
    · rintro i ⟨o, x, hf⟩
      rw [e] at hf
      simp only [two, Verif.Internode.upd] at hf
      split at hf
      · rcases hc with rfl | ⟨_, _, rfl⟩ <;> cases hf
      · split at hf <;> cases hf
    · intro j hj
      rw [e]
      by_cases j1 : j = 1
      · subst j1
        show holds c1 = []
        rcases hc with g | ⟨x, y, g⟩ <;> rw [g] <;> rfl
      · rw [two_pc2 _ _ _ hj j1]; rfl
  refine ⟨_, α, l.length, E, N, P, ?_, ?_, by rw [e1]; exact hc, a1, ?_, a2, ?_, ?_⟩
  · intro j t hj g
    rw [e] at g
    by_cases j1 : j = 1
    · subst j1
      change wants c1 = some t at g
      rcases hc with g' | ⟨x, y, g'⟩ <;> rw [g'] at g <;> cases g
    · rw [two_pc2 _ _ _ hj j1] at g; cases g
  · intro m hm j t v g
    by_cases q1 : m = l.length + 1
    · rw [q1, a1] at g; cases g
      have B : Bound (trace false true α l.length).heap (2 ^ 40) (2 ^ 40) := by
        rw [e]
        refine ⟨2, G.all, G.hl, ?_⟩
        rw [two_heap, (hS 2 (.inl rfl)).2.1]
        exact lim_has
      have := (bound_map E N.clean P.first _ (Nat.le_refl _) _ _).2 B
      rw [this]; nofun
    · by_cases q2 : m = l.length + 2
      · rw [q2, a2] at g; cases g
      · rw [a3 m (by omega)] at g
        simp only [f] at g
        split at g <;> cases g
  · show (trace false true α (l.length + 1 + 1)).pc 2 = .idle
    rw [trace, e1, a1]
    rcases act_call (strict := false) (main := true) (two (.fail c.o .rounds) ((h.mod c.y Node.unlock).mod c.l Node.unlock) c1) 1 (.insert (2 ^ 40) 7) with ⟨g, _, _⟩ | ⟨g, _⟩
    · rw [g]; exact two_pc2 _ _ _ (by decide) (by decide)
    · rw [g]; simp only [Verif.Internode.upd_ne _ _ _ (show (2 : Nat) ≠ 1 by decide)]; exact two_pc2 _ _ _ (by decide) (by decide)
  · intro m
    refine ⟨2 * (m + l.length + 3), by omega, ?_⟩
    rw [a3 _ (by omega)]
    simp only [f]; rw [if_pos (by omega)]
  · intro m
    refine ⟨2 * (m + l.length + 3) + 1, by omega, ?_⟩
    rw [a3 _ (by omega)]
    simp only [f]; rw [if_neg (by omega)]

end Verif.Index
