import Verif.Proof.TreeSolo
import Verif.Prop.Tree
set_option linter.unusedSimpArgs false
set_option linter.unusedVariables false
set_option maxRecDepth 100000
/-!
# Many threads on one tree (C33, C46)

The machine is `Model/TreeRace.lean`; executions and the list `returned` of the inserts that have returned are defined in
`Spec/Threads.lean`.  `fixed = false` is the code.
-/
namespace Verif.Threads
open Verif.Spec
open Verif.Internode (Arr upd upd_same upd_ne)
open Verif.Perm (size get)
open Verif.Tree
variable {V : Type}

theorem World.get {h : History V} {s : St V} {m : Nat → Nat} {G : Ghost} {n : Nat} (W : World h s m G n) (hA : Apart s.tree)
    {d : Bytes} (hd : d.length ≤ 256) : get' s.tree d = .ok (mapAfter h d) := by
  have S := W.core.neat ((apart_iff W.core.inv).1 hA)
  obtain ⟨r, h1, h2⟩ := get_ok W.core.inv d hd
  cases e : mapAfter h d with
  | some v => exact S.neat.get_complete W.core.inv W.core.ru hd (W.core.last d v e)
  | none =>
    cases hr : r with
    | none => rw [h1, hr]
    | some v => have := S.exact d v (h2 v hr); rw [e] at this; cases this

/-- The step in which an insert returns. -/
theorem insert_returns {fixed : Bool} {σ : Nat → St V} {α : Nat → Act V} (E : Exec fixed σ α) {n : Nat} (hn : n < 2 ^ 128)
    {i : Nat} {d : Bytes} {v : V} {x : Option V}
    (busy : ∀ o y, (σ n).pc i ≠ .done o y) (hx : (σ (n + 1)).pc i = .done (.insert d v) x) :
    stored fixed σ α (n + 1) = stored fixed σ α n ++ [(d.drop (8 * lost fixed σ α n i), v)] ∧ d.length ≤ 256 ∧
      lost fixed σ α (n + 1) i = lost fixed σ α n i ∧
      (∀ o, x = some o → (d.drop (8 * lost fixed σ α n i), o) ∈ stored fixed σ α n) ∧
      (Apart (σ (n + 1)).tree → x = mapAfter (stored fixed σ α n) (d.drop (8 * lost fixed σ α n i))) := by
  obtain ⟨G, W⟩ := exec_ok E n (by omega)
  have hs := hx
  rw [E.next n] at hs
  cases ha : α n with
  | call i' o =>
    exfalso
    rw [ha] at hs
    have key : (upd (σ n).pc i' (begin (σ n).tree o)) i ≠ .done (.insert d v) x := by
      by_cases e : i = i'
      · subst e
        rw [upd_same]
        unfold begin
        split <;> simp
      · rw [upd_ne _ _ _ e]; exact busy _ _
    simp only [act] at hs
    split at hs <;> first | exact key hs | exact busy _ _ hs
  | run i' =>
    rw [ha] at hs
    by_cases e : i = i'
    · subst e
      have hfr := W.fresh
      obtain ⟨G', e1, _, _, _, e5⟩ := step_ok fixed W.core (by omega) (W.ok i)
      have ht : (σ (n + 1)).tree = (step fixed (σ n).tree ((σ n).pc i)).1 := by rw [E.next n, ha]; rfl
      simp only [act, upd_same] at hs
      obtain ⟨f1, f2, f3, f4⟩ := e5 d v x busy hs
      have hr : stored fixed σ α (n + 1) = stored fixed σ α n ++ [(d.drop (8 * lost fixed σ α n i), v)] := by
        rw [stored_succ E, ha]
        simp only [news, act, upd_same, done1, f1, Option.map_some, Option.toList]
      have hl : lost fixed σ α (n + 1) i = lost fixed σ α n i := by
        rw [lost, ha, losing_run]
        unfold lose
        split
        · rename_i c; rw [c] at hs; cases hs
        · rfl
      refine ⟨hr, f2, hl, f3, fun hA => f4 ((apart_iff e1.inv).1 (by rw [← ht]; exact hA))⟩
    · exfalso
      have : (act fixed (σ n) (.run i')).pc i = (σ n).pc i := upd_ne _ _ _ e
      rw [this] at hs
      exact busy _ _ hs

/-! ## C46: linearizability

The first theorems hold of every execution of the code.  An insert that runs out of hops in a sublayer goes on with a part of its key
(C33): `lost` says how many chunks of eight bytes are gone, and `stored` is the list of the inserts returned so far with what was left
of their keys.  The theorems after them say the same about the keys as they were given, as long as no insert runs out of hops in a
sublayer. -/

/-- C46, inserts.  The step in which an insert returns is its point of linearization: it reports the binding, under what is left of its
key, that the inserts returned before it have left, and from then on counts as the latest insert.  Missing for the full property:
trees in which a split has separated equal chunks, the chunks lost at the hop limit, and critical sections that are not atomic. -/
theorem C46_insert_atomic_partial {σ : Nat → St V} {α : Nat → Act V} (E : Exec false σ α) {n : Nat}
    (hn : n < 2 ^ 128) (hA : Apart (σ (n + 1)).tree) {i : Nat}
    {d : Bytes} {v : V} {x : Option V} (busy : ∀ o y, (σ n).pc i ≠ .done o y)
    (hx : (σ (n + 1)).pc i = .done (.insert d v) x) :
    x = mapAfter (stored false σ α n) (d.drop (8 * lost false σ α n i)) ∧
      stored false σ α (n + 1) = stored false σ α n ++ [(d.drop (8 * lost false σ α n i), v)] := by
  obtain ⟨h1, _, _, _, h4⟩ := insert_returns E hn busy hx
  exact ⟨h4 hA, h1⟩

/-- C46, lookups.  A lookup that thread `i` calls in step `a` and that has returned before step `n` reports the binding left by
the inserts returned up to some step between the two.  Missing: as for inserts. -/
theorem C46_get_atomic_partial {σ : Nat → St V} {α : Nat → Act V} (E : Exec false σ α) {i a n : Nat}
    {d : Bytes} (hc : α a = .call i (.get d)) (hi : (σ a).pc i = .idle ∨ ∃ o r, (σ a).pc i = .done o r) (ha : a < n)
    (hn : n ≤ 2 ^ 128) (hq : ∀ j, a < j → j < n → ∀ o, α j ≠ .call i o)
    (hA : Apart (σ n).tree) {o : Op V} {r : Option V} (hr : (σ n).pc i = .done o r) :
    o = .get d ∧ ∃ j, a < j ∧ j ≤ n ∧ r = mapAfter (stored false σ α j) d := by
  obtain ⟨G, W, g⟩ := get_watch E hc hi n ha hn hq hA
  rw [hr] at g
  exact g

/-- C46, the tree itself: at all times a lookup that runs alone, and `len`, see exactly the inserts returned so far.  Missing: as
for inserts. -/
theorem C46_tree_is_stored_partial {σ : Nat → St V} {α : Nat → Act V} (E : Exec false σ α) {n : Nat}
    (hn : n ≤ 2 ^ 128) (hA : Apart (σ n).tree) :
    (∀ d, d.length ≤ 256 → get' (σ n).tree d = .ok (mapAfter (stored false σ α n) d)) ∧
      len (σ n).tree = distinctKeys (stored false σ α n) := by
  obtain ⟨G, W⟩ := exec_ok E n hn
  exact ⟨fun d hd => W.get hA hd, (W.core.neat ((apart_iff W.core.inv).1 hA)).count⟩

/-- C46: keys that do not clash keep neighbouring leaves apart at all times, so that the theorems above and below apply to them
without looking at the tree. -/
theorem C46_apart_without_clashes {fixed : Bool} {σ : Nat → St V} {α : Nat → Act V} (E : Exec fixed σ α) {n : Nat}
    (hn : n ≤ 2 ^ 128) (hK : NoClash (keysOf (stored fixed σ α n))) : Apart (σ n).tree :=
  apart_of_noClash E hn hK fun p hp => ⟨p.2, hp⟩

/-- C46: once two neighbouring leaves share a chunk they do so for ever; a tree that is apart has always been. -/
theorem C46_apart_before {fixed : Bool} {σ : Nat → St V} {α : Nat → Act V} (E : Exec fixed σ α) {m n : Nat}
    (hn : n ≤ 2 ^ 128) (hm : m ≤ n) (hA : Apart (σ n).tree) : Apart (σ m).tree := apart_back E hn hm hA

/-- C46 for any keys, clashing or not: what an insert or a lookup reports has been stored under that key (what is left of it)
before. -/
theorem C46_reports_genuine_partial {fixed : Bool} {σ : Nat → St V} {α : Nat → Act V} (E : Exec fixed σ α) (n : Nat)
    (hn : n ≤ 2 ^ 128) :
    ∀ i o v, (σ n).pc i = .done o (some v) → (o.key.drop (8 * lost fixed σ α n i), v) ∈ stored fixed σ α n := by
  induction n with
  | zero => intro i o v h; rw [E.start] at h; cases h
  | succ n ih =>
    have ih := ih (by omega)
    intro i o v h
    obtain ⟨l, hl⟩ := stored_mono E (Nat.le_succ n)
    have keep : ∀ p, p ∈ stored fixed σ α n → p ∈ stored fixed σ α (n + 1) := by
      intro p c; rw [hl]; simp [c]
    by_cases busy : ∃ o y, (σ n).pc i = .done o y
    · obtain ⟨o', y, hb⟩ := busy
      have hold : (σ n).pc i = .done o (some v) ∧ lost fixed σ α (n + 1) i = lost fixed σ α n i := by
        rw [E.next n] at h
        rw [lost]
        cases ha : α n with
        | run i' =>
          rw [ha] at h
          by_cases e : i = i'
          · subst e
            simp only [act, upd_same, hb, step] at h
            rw [losing_run, hb, h]
            exact ⟨rfl, rfl⟩
          · have : (act fixed (σ n) (.run i')).pc i = (σ n).pc i := upd_ne _ _ _ e
            rw [losing_other _ _ _ e]
            rw [this] at h
            exact ⟨h, rfl⟩
        | call i' o2 =>
          rw [ha] at h
          have key : (upd (σ n).pc i' (begin (σ n).tree o2)) i = .done o (some v) →
              i ≠ i' ∧ (σ n).pc i = .done o (some v) := by
            intro h
            by_cases e : i = i'
            · subst e
              rw [upd_same] at h
              unfold begin at h
              split at h <;> cases h
            · exact ⟨e, by rwa [upd_ne _ _ _ e] at h⟩
          have : i ≠ i' ∧ (σ n).pc i = .done o (some v) := by
            simp only [act] at h
            split at h
            · exact key h
            · exact key h
            · rename_i h1 h2
              refine ⟨?_, h⟩
              rintro rfl
              exact h2 _ _ hb
          exact ⟨this.2, by simp only [losing, if_neg this.1]⟩
      rw [hold.2]
      exact keep _ (ih i o v hold.1)
    · have busy : ∀ o y, (σ n).pc i ≠ .done o y := fun o y c => busy ⟨o, y, c⟩
      cases o with
      | insert d w =>
        obtain ⟨_, _, h2, h3, _⟩ := insert_returns E (by omega) busy h
        rw [h2]
        exact keep _ (h3 v rfl)
      | get d =>
        obtain ⟨G, W⟩ := exec_ok E n (by omega)
        have T := W.ok i
        have hs := h
        rw [E.next n] at hs
        cases ha : α n with
        | call i' o2 =>
          exfalso
          rw [ha] at hs
          have key : (upd (σ n).pc i' (begin (σ n).tree o2)) i ≠ .done (.get d) (some v) := by
            by_cases e : i = i'
            · subst e
              rw [upd_same]
              unfold begin
              split <;> simp
            · rw [upd_ne _ _ _ e]; exact busy _ _
          simp only [act] at hs
          split at hs <;> first | exact key hs | exact busy _ _ hs
        | run i' =>
          rw [ha] at hs
          by_cases e : i = i'
          · subst e
            simp only [act, upd_same] at hs
            cases hc : (σ n).pc i with
            | idle => rw [hc] at hs; cases hs
            | done o r => exact absurd hc (busy o r)
            | fail o e => rw [hc] at hs; cases hs
            | climb o k p =>
              rw [hc] at hs; simp only [step] at hs
              repeat' split at hs
              all_goals cases hs
            | desc o k r p =>
              rw [hc] at hs; simp only [step] at hs
              repeat' split at hs
              all_goals cases hs
            | adv o k r f l =>
              rw [hc] at hs
              cases f with
              | zero => cases hs
              | succ f =>
                simp only [step] at hs
                repeat' split at hs
                all_goals cases hs
            | sect o k r l =>
              rw [hc] at hs T
              obtain ⟨⟨_, _, rfl⟩, _⟩ := T
              simp only [step] at hs
              repeat' split at hs
              all_goals cases hs
            | next o k l =>
              rw [hc] at hs; simp only [step] at hs
              repeat' split at hs
              all_goals cases hs
            | look o k l =>
              rw [hc] at hs T
              obtain ⟨⟨d', rfl⟩, m, hk, hl, hkd⟩ := T
              have hm := hk.2.2.2.2 d' rfl
              have hl1 : lost fixed σ α (n + 1) i = 0 := by
                rw [lost, ha, losing_run, hc]; exact hm
              change lookStep (σ n).tree (.get d') k l = _ at hs
              rcases look_ok W.core.inv W.core.ru hk.ks hl hkd (.get d') with ⟨w, b1, b2⟩ | ⟨q, b1, _⟩ | ⟨b1, _⟩
              · rw [b1] at hs
                cases hs
                rw [hl1]
                rw [hm] at b2
                exact keep _ (W.core.sound d v b2)
              · rw [b1] at hs; cases hs
              · rw [b1] at hs; cases hs
          · exfalso
            have : (act fixed (σ n) (.run i')).pc i = (σ n).pc i := upd_ne _ _ _ e
            rw [this] at hs
            exact busy _ _ hs

/-- C46, failures, in every execution: the only way a call fails is the panic for a key of more than 256 bytes. -/
theorem C46_no_failure {fixed : Bool} {σ : Nat → St V} {α : Nat → Act V} (E : Exec fixed σ α) {n : Nat}
    (hn : n ≤ 2 ^ 128) {i : Nat} {o : Op V} {e : Err} (h : (σ n).pc i = .fail o e) :
    e = .panic ∧ 256 < o.key.length := by
  obtain ⟨G, W⟩ := exec_ok E n hn
  have := W.ok i
  rw [h] at this
  exact this

/-! ### As long as no insert runs out of hops in a sublayer -/

/-- C46, inserts: the step in which an insert returns is its point of linearization.  Missing for the full property: trees in which a
split has separated equal chunks, inserts that run out of hops in a sublayer, and critical sections that are not atomic. -/
theorem C46_insert_linearizable_partial {fixed : Bool} {σ : Nat → St V} {α : Nat → Act V} (E : Exec fixed σ α) {n : Nat}
    (hn : n < 2 ^ 128) (calm : fixed = true ∨ NoOverrun σ (n + 1)) (hA : Apart (σ (n + 1)).tree) {i : Nat}
    {d : Bytes} {v : V} {x : Option V} (busy : ∀ o y, (σ n).pc i ≠ .done o y)
    (hx : (σ (n + 1)).pc i = .done (.insert d v) x) :
    x = mapAfter (returned σ α n) d ∧ returned σ α (n + 1) = returned σ α n ++ [(d, v)] := by
  have calm' : fixed = true ∨ NoOverrun σ n := calm.imp id (fun c j hj => c j (by omega))
  obtain ⟨h1, _, _, _, h4⟩ := insert_returns E hn busy hx
  rw [stored_calm _ calm, stored_calm _ calm', lost_calm _ calm'] at h1
  rw [stored_calm _ calm', lost_calm _ calm'] at h4
  exact ⟨h4 hA, h1⟩

/-- C46, lookups.  Missing: as for inserts. -/
theorem C46_get_linearizable_partial {fixed : Bool} {σ : Nat → St V} {α : Nat → Act V} (E : Exec fixed σ α) {i a n : Nat}
    {d : Bytes} (hc : α a = .call i (.get d)) (hi : (σ a).pc i = .idle ∨ ∃ o r, (σ a).pc i = .done o r) (ha : a < n)
    (hn : n ≤ 2 ^ 128) (calm : fixed = true ∨ NoOverrun σ n) (hq : ∀ j, a < j → j < n → ∀ o, α j ≠ .call i o)
    (hA : Apart (σ n).tree) {o : Op V} {r : Option V} (hr : (σ n).pc i = .done o r) :
    o = .get d ∧ ∃ j, a < j ∧ j ≤ n ∧ r = mapAfter (returned σ α j) d := by
  obtain ⟨G, W, g⟩ := get_watch E hc hi n ha hn hq hA
  rw [hr] at g
  obtain ⟨g1, j, g2, g3, g4⟩ := g
  rw [stored_calm j (calm.imp id (fun c j hj => c j (by omega)))] at g4
  exact ⟨g1, j, g2, g3, g4⟩

/-- C46, the tree itself.  Missing: as for inserts. -/
theorem C46_tree_is_map_partial {fixed : Bool} {σ : Nat → St V} {α : Nat → Act V} (E : Exec fixed σ α) {n : Nat}
    (hn : n ≤ 2 ^ 128) (calm : fixed = true ∨ NoOverrun σ n) (hA : Apart (σ n).tree) :
    (∀ d, d.length ≤ 256 → get' (σ n).tree d = .ok (mapAfter (returned σ α n) d)) ∧
      len (σ n).tree = distinctKeys (returned σ α n) := by
  obtain ⟨G, W⟩ := exec_ok E n hn
  rw [stored_calm _ calm] at W
  exact ⟨fun d hd => W.get hA hd, (W.core.neat ((apart_iff W.core.inv).1 hA)).count⟩

/-- C46 for inserts of keys of at most eight bytes: they all live in the first layer, so no condition on hops is needed.  Missing:
trees in which a split has separated equal chunks, and critical sections that are not atomic. -/
theorem C46_short_keys_linearizable_partial {σ : Nat → St V} {α : Nat → Act V} (E : Exec false σ α) {n : Nat} (hn : n < 2 ^ 128)
    (hs : ∀ j i d v, α j = .call i (.insert d v) → d.length ≤ 8) (hA : Apart (σ (n + 1)).tree) :
    (∀ i d v x, (∀ o y, (σ n).pc i ≠ .done o y) → (σ (n + 1)).pc i = .done (.insert d v) x →
      x = mapAfter (returned σ α n) d ∧ returned σ α (n + 1) = returned σ α n ++ [(d, v)]) ∧
    (∀ i a d o r, α a = .call i (.get d) → ((σ a).pc i = .idle ∨ ∃ o r, (σ a).pc i = .done o r) → a < n →
      (∀ j, a < j → j < n → ∀ o, α j ≠ .call i o) → (σ n).pc i = .done o r →
      o = .get d ∧ ∃ j, a < j ∧ j ≤ n ∧ r = mapAfter (returned σ α j) d) := by
  have c := noOverrun_short E (n + 1) (by omega) (fun j i d v _ h => hs j i d v h)
  have hA' := apart_back E (by omega) (Nat.le_succ n) hA
  refine ⟨fun i d v x busy hx => C46_insert_linearizable_partial E hn (Or.inr c) hA busy hx, ?_⟩
  intro i a d o r hc hi ha hq hr
  exact C46_get_linearizable_partial E hc hi ha (by omega) (Or.inr fun j hj => c j (by omega)) hq hA' hr

/-! ## C33: restarts in a sublayer -/

/-- C33 in every execution of the code: an insert that has returned is found under what is left of its key, and what is left is the
whole key unless the insert ran out of hops.  Missing for the full property: that nothing is lost, which is false
(`C33_key_in_wrong_layer`). -/
theorem C33_found_under_rest_partial {σ : Nat → St V} {α : Nat → Act V} (E : Exec false σ α) {n : Nat} (hn : n < 2 ^ 128)
    (hA : Apart (σ (n + 1)).tree) {i : Nat} {d : Bytes} {v : V} {x : Option V}
    (busy : ∀ o y, (σ n).pc i ≠ .done o y) (hx : (σ (n + 1)).pc i = .done (.insert d v) x) :
    get' (σ (n + 1)).tree (d.drop (8 * lost false σ α n i)) = .ok (some v) ∧
      (0 < lost false σ α n i → 8 * lost false σ α n i < d.length ∧
        ∃ j k r l, j < n ∧ (σ j).pc i = .adv (.insert d v) k r 0 l ∧ k.shiftCount = lost false σ α n i) := by
  obtain ⟨h1, h2, _, _, _⟩ := insert_returns E hn busy hx
  obtain ⟨G, W⟩ := exec_ok E (n + 1) (by omega)
  refine ⟨?_, fun hpos => ?_⟩
  · rw [W.get hA (by rw [List.length_drop]; omega), h1, mapAfter_snoc, if_pos rfl]
  · have hop : ((σ n).pc i).op? = some (.insert d v) := by
      have hs := hx
      rw [E.next n] at hs
      cases ha : α n with
      | call i' o =>
        exfalso
        rw [ha] at hs
        have key : (upd (σ n).pc i' (begin (σ n).tree o)) i ≠ .done (.insert d v) x := by
          by_cases e : i = i'
          · subst e
            rw [upd_same]
            unfold begin
            split <;> simp
          · rw [upd_ne _ _ _ e]; exact busy _ _
        simp only [act] at hs
        split at hs <;> first | exact key hs | exact busy _ _ hs
      | run i' =>
        rw [ha] at hs
        by_cases e : i = i'
        · subst e
          have := step_op false (σ n).tree ((σ n).pc i)
          simp only [act, upd_same] at hs
          rw [hs] at this
          exact this.symm
        · exfalso
          have : (act false (σ n) (.run i')).pc i = (σ n).pc i := upd_ne _ _ _ e
          rw [this] at hs
          exact busy _ _ hs
    obtain ⟨j, k, r, l, g1, g2, g3⟩ := lost_source E n i hpos hop
    refine ⟨?_, j, k, r, l, g1, g2, g3⟩
    obtain ⟨G1, W1⟩ := exec_ok E j (by omega)
    have T := W1.ok i
    rw [g2] at T
    obtain ⟨_, m, ⟨k1, k2, k3, k4, _⟩, _⟩ := T
    rw [k1.shiftCount_eq] at g3
    have h4 : (Op.insert d v).key = d := rfl
    rw [h4] at k4
    omega

/-- C33 with the restart repaired (`fixed`): an insert that has returned is found under its key, however many restarts there
were. -/
theorem C33_found_if_restart_stays_in_layer {σ : Nat → St V} {α : Nat → Act V} (E : Exec true σ α) {n : Nat} (hn : n < 2 ^ 128)
    (hA : Apart (σ (n + 1)).tree) {i : Nat} {d : Bytes} {v : V} {x : Option V}
    (busy : ∀ o y, (σ n).pc i ≠ .done o y) (hx : (σ (n + 1)).pc i = .done (.insert d v) x) :
    get' (σ (n + 1)).tree d = .ok (some v) := by
  obtain ⟨_, h2, _⟩ := insert_returns E hn busy hx
  have h1 := (C46_insert_linearizable_partial E hn (Or.inl rfl) hA busy hx).2
  rw [(C46_tree_is_map_partial E (by omega) (Or.inl rfl) hA).1 d h2, h1, mapAfter_snoc, if_pos rfl]

/-- C33 for the code as it is, as long as no insert runs out of its 128 hops in a sublayer.  Missing for the full property: such
inserts, and there it fails (`C33_key_in_wrong_layer`). -/
theorem C33_found_partial {σ : Nat → St V} {α : Nat → Act V} (E : Exec false σ α) {n : Nat} (hn : n < 2 ^ 128)
    (calm : NoOverrun σ (n + 1))
    (hA : Apart (σ (n + 1)).tree) {i : Nat} {d : Bytes} {v : V} {x : Option V}
    (busy : ∀ o y, (σ n).pc i ≠ .done o y) (hx : (σ (n + 1)).pc i = .done (.insert d v) x) :
    get' (σ (n + 1)).tree d = .ok (some v) := by
  obtain ⟨_, h2, _⟩ := insert_returns E hn busy hx
  have h1 := (C46_insert_linearizable_partial E hn (Or.inr calm) hA busy hx).2
  rw [(C46_tree_is_map_partial E (by omega) (Or.inr calm) hA).1 d h2, h1, mapAfter_snoc, if_pos rfl]

/-! ## An execution that meets the hypotheses -/

/-- Threads 0 and 1 insert different values under the same key, taking turns, while thread 2 looks it up. -/
def duel (n : Nat) : Act Nat :=
  [.call 0 (.insert [1, 2] 10), .call 1 (.insert [1, 2] 20), .call 2 (.get [1, 2]), .run 0, .run 1, .run 2, .run 0, .run 1,
    .run 2, .run 0, .run 1, .run 0, .run 2, .run 1].getD n (.run 0)

/-- The states of that execution. -/
def duelSt : Nat → St Nat
  | 0 => ⟨Tree.empty, fun _ => .idle⟩
  | n + 1 => act false (duelSt n) (duel n)

theorem duel_exec : Exec false duelSt duel := ⟨rfl, fun _ => rfl⟩

/-- The call that a thread has just completed, with its result. -/
def outcome : Pc Nat → Option (Op Nat × Option Nat)
  | .done o x => some (o, x)
  | _ => none

theorem outcome_some {c : Pc Nat} {o : Op Nat} {x : Option Nat} (h : outcome c = some (o, x)) : c = .done o x := by
  unfold outcome at h
  split at h <;> cases h
  rfl

/-- Thread 1's insert returns in step 13 and reports thread 0's value, thread 2's lookup has returned the same; all hypotheses of
the theorems above hold of this execution. -/
theorem duel_meets : Exec false duelSt duel ∧ (∀ j i d v, duel j = .call i (.insert d v) → d.length ≤ 8) ∧
    NoClash (keysOf (returned duelSt duel 14)) ∧ NoOverrun duelSt 14 ∧
    (∀ o y, (duelSt 13).pc 1 ≠ .done o y) ∧ (duelSt 14).pc 1 = .done (.insert [1, 2] 20) (some 10) ∧
    returned duelSt duel 13 = [([1, 2], 10)] ∧ returned duelSt duel 14 = [([1, 2], 10), ([1, 2], 20)] ∧
    (duelSt 13).pc 2 = .done (.get [1, 2]) (some 10) := by
  have short : ∀ j i d v, duel j = .call i (.insert d v) → d.length ≤ 8 := by
    intro j i d v h
    match j with
    | 0 | 1 => cases h; decide
    | 2 | 3 | 4 | 5 | 6 | 7 | 8 | 9 | 10 | 11 | 12 | 13 => cases h
    | j + 14 => cases h
  have r14 : returned duelSt duel 14 = [([1, 2], 10), ([1, 2], 20)] := by decide +kernel
  have o13 : outcome ((duelSt 13).pc 1) = none := by decide +kernel
  have o14 : outcome ((duelSt 14).pc 1) = some (.insert [1, 2] 20, some 10) := by decide +kernel
  have g13 : outcome ((duelSt 13).pc 2) = some (.get [1, 2], some 10) := by decide +kernel
  refine ⟨duel_exec, short, ?_, noOverrun_short duel_exec 14 (by decide) (fun j i d v _ h => short j i d v h), ?_,
    outcome_some o14, by decide +kernel, r14, outcome_some g13⟩
  · refine noClash_of_length 2 _ ?_
    rintro k ⟨v, hv⟩
    rw [r14] at hv
    simp only [List.mem_cons, List.not_mem_nil, or_false, Prod.mk.injEq] at hv
    rcases hv with ⟨rfl, _⟩ | ⟨rfl, _⟩ <;> rfl
  · intro o y h
    rw [h] at o13
    cases o13

theorem duel_apart : Apart (duelSt 14).tree :=
  C46_apart_without_clashes duel_exec (by decide) (by rw [stored_calm _ (Or.inr duel_meets.2.2.2.1)]; exact duel_meets.2.2.1)

/-- The theorems above apply to it. -/
example : some 10 = mapAfter (returned duelSt duel 13) [1, 2] :=
  (C46_insert_linearizable_partial duel_exec (by decide) (Or.inr duel_meets.2.2.2.1) duel_apart duel_meets.2.2.2.2.1
    duel_meets.2.2.2.2.2.1).1

example : get' (duelSt 14).tree [1, 2] = .ok (some 20) :=
  C33_found_partial duel_exec (by decide) duel_meets.2.2.2.1 duel_apart duel_meets.2.2.2.2.1 duel_meets.2.2.2.2.2.1

/-- A thread that is never called stays idle. -/
theorem idle_of_uncalled {fixed : Bool} {σ : Nat → St V} {α : Nat → Act V} (E : Exec fixed σ α) {i : Nat} (n : Nat)
    (h : ∀ j o, j < n → α j ≠ .call i o) : (σ n).pc i = .idle := by
  induction n with
  | zero => rw [E.start]
  | succ n ih =>
    have ih := ih (fun j o hj => h j o (by omega))
    rw [E.next n]
    cases ha : α n with
    | run i' =>
      by_cases e : i = i'
      · subst e; simp only [act, upd_same, ih, step]
      · exact (upd_ne _ _ _ e).trans ih
    | call i' o =>
      have hne : i ≠ i' := by
        rintro rfl
        exact h n o (by omega) ha
      simp only [act]
      split
      · exact (upd_ne _ _ _ hne).trans ih
      · exact (upd_ne _ _ _ hne).trans ih
      · exact ih

/-- Keys of ten bytes that share their first eight. -/
def tail2 (x : UInt8) : Bytes := List.replicate 8 1 ++ [x, 5]

/-- Thread 0 inserts two keys that share eight bytes, which makes a sublayer; then threads 0 and 1 insert two more, taking
turns. -/
def under (n : Nat) : Act Nat :=
  (([.call 0 (.insert (tail2 1) 1), .run 0, .run 0, .run 0, .run 0, .call 0 (.insert (tail2 2) 2), .run 0, .run 0, .run 0, .run 0,
    .call 0 (.insert (tail2 3) 3), .call 1 (.insert (tail2 4) 4)] ++ (List.replicate 8 [.run 0, .run 1]).flatten : List (Act Nat))).getD n (.run 0)

/-- The states of that execution. -/
def underSt : Nat → St Nat
  | 0 => ⟨Tree.empty, fun _ => .idle⟩
  | n + 1 => act false (underSt n) (under n)

theorem under_exec : Exec false underSt under := ⟨rfl, fun _ => rfl⟩

/-- Is the thread an insert in a sublayer that has no hops left? -/
def stuck : Pc Nat → Bool
  | .adv _ k _ 0 _ => k.shiftCount ≠ 0
  | _ => false

/-- The hypotheses of `C33_found_partial` and of the theorems for C46 hold where thread 1's insert into the sublayer returns. -/
theorem under_meets : NoClash (keysOf (returned underSt under 28)) ∧ NoOverrun underSt 28 ∧
    (∀ o y, (underSt 27).pc 1 ≠ .done o y) ∧ (underSt 28).pc 1 = .done (.insert (tail2 4) 4) none ∧
    returned underSt under 27 = [(tail2 1, 1), (tail2 2, 2), (tail2 3, 3)] := by
  have r28 : returned underSt under 28 = [(tail2 1, 1), (tail2 2, 2), (tail2 3, 3), (tail2 4, 4)] := by decide +kernel
  have o27 : outcome ((underSt 27).pc 1) = none := by decide +kernel
  have o28 : outcome ((underSt 28).pc 1) = some (.insert (tail2 4) 4, none) := by decide +kernel
  have calls : ∀ j, j < 28 → (match under j with | .call i _ => decide (i < 2) | .run _ => true) = true := by decide +kernel
  have st : ∀ j, j < 28 → (stuck ((underSt j).pc 0) || stuck ((underSt j).pc 1)) = false := by decide +kernel
  refine ⟨?_, ?_, ?_, outcome_some o28, by decide +kernel⟩
  · refine noClash_of_length 10 _ ?_
    rintro k ⟨v, hv⟩
    rw [r28] at hv
    simp only [List.mem_cons, List.not_mem_nil, or_false, Prod.mk.injEq] at hv
    rcases hv with ⟨rfl, _⟩ | ⟨rfl, _⟩ | ⟨rfl, _⟩ | ⟨rfl, _⟩ <;> rfl
  · intro j hj i o k r l h
    by_cases hi : i < 2
    · have s := st j hj
      rw [Bool.or_eq_false_iff] at s
      have : stuck ((underSt j).pc i) = false := by
        match i, hi with
        | 0, _ => exact s.1
        | 1, _ => exact s.2
      rw [h] at this
      simpa [stuck] using this
    · have := idle_of_uncalled under_exec (i := i) j (fun m o hm c => by
        have := calls m (by omega)
        rw [c] at this
        simp only [decide_eq_true_eq] at this
        exact hi this)
      rw [this] at h
      cases h
  · intro o y h
    rw [h] at o27
    cases o27

example : get' (underSt 28).tree (tail2 4) = .ok (some 4) :=
  C33_found_partial under_exec (by decide) under_meets.2.1
    (C46_apart_without_clashes under_exec (by decide) (by rw [stored_calm _ (Or.inr under_meets.2.1)]; exact under_meets.1)) under_meets.2.2.1 under_meets.2.2.2.1

/-! ### An execution with keys that clash -/

/-- Threads 0 and 1 insert a key and the same key with a zero byte appended, taking turns, while thread 2 looks up the first. -/
def clash (n : Nat) : Act Nat :=
  [.call 0 (.insert [1] 10), .call 1 (.insert [1, 0] 20), .call 2 (.get [1]), .run 0, .run 1, .run 2, .run 0, .run 1,
    .run 2, .run 0, .run 1, .run 0, .run 2, .run 1].getD n (.run 0)

/-- The states of that execution. -/
def clashSt : Nat → St Nat
  | 0 => ⟨Tree.empty, fun _ => .idle⟩
  | n + 1 => act false (clashSt n) (clash n)

theorem clash_exec : Exec false clashSt clash := ⟨rfl, fun _ => rfl⟩

/-- The hypotheses of the theorems for C46 hold where thread 1's insert returns, although the two keys clash. -/
theorem clash_meets : ¬ NoClash (keysOf (returned clashSt clash 14)) ∧ Apart (clashSt 14).tree ∧ NoOverrun clashSt 14 ∧
    (∀ o y, (clashSt 13).pc 1 ≠ .done o y) ∧ (clashSt 14).pc 1 = .done (.insert [1, 0] 20) none := by
  have short : ∀ j i d v, clash j = .call i (.insert d v) → d.length ≤ 8 := by
    intro j i d v h
    match j with
    | 0 | 1 => cases h; decide
    | 2 | 3 | 4 | 5 | 6 | 7 | 8 | 9 | 10 | 11 | 12 | 13 => cases h
    | j + 14 => cases h
  have r14 : returned clashSt clash 14 = [([1], 10), ([1, 0], 20)] := by decide +kernel
  have o13 : outcome ((clashSt 13).pc 1) = none := by decide +kernel
  have o14 : outcome ((clashSt 14).pc 1) = some (.insert [1, 0] 20, none) := by decide +kernel
  refine ⟨?_, apartB_sound (by decide +kernel), noOverrun_short clash_exec 14 (by decide) (fun j i d v _ h => short j i d v h), ?_,
    outcome_some o14⟩
  · intro h
    rw [r14] at h
    exact h [1] [1, 0] ⟨10, by simp⟩ ⟨20, by simp⟩ ⟨0, by decide, by decide, rfl, by decide, by decide⟩
  · intro o y h
    rw [h] at o13
    cases o13

example : get' (clashSt 14).tree [1] = .ok (mapAfter (returned clashSt clash 14) [1]) :=
  (C46_tree_is_map_partial clash_exec (by decide) (Or.inr clash_meets.2.2.1) clash_meets.2.1).1 [1] (by decide)

end Verif.Threads
