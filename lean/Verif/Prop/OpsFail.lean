import Verif.Proof.OpsRounds
import Verif.Prop.OpsQuiet
import Verif.Prop.OpsLive
set_option linter.unusedSimpArgs false
set_option linter.unusedVariables false
/-!
# C67: when an insert can fail

A split is carried upwards by a loop of at most 64 rounds (C49).  The loop uses one round for each level of the index of a layer, and one more
only for a node that another thread has added meanwhile.
-/
namespace Verif.Ops
open Verif.Internode (upd upd_same upd_ne)
open Verif.Spec (Bytes)
variable {V : Type} {fixed strict : Bool} {τ : Nat → St V} {β : Nat → Option (Act V)} {N : Nat}

/-- No layer has 2^63 nodes. -/
def Small (τ : Nat → St V) (N : Nat) : Prop := ∀ n, n ≤ N → ∀ L, nodes (τ n) L ≤ 2 ^ 63

/-- While an insert runs, fewer than 42 steps of other threads add a node. -/
def FewSplits (τ : Nat → St V) (β : Nat → Option (Act V)) (N : Nat) : Prop :=
  ∀ i d v a b, b ≤ N → Open τ β i (.insert d v) a b → otherNodes τ β i a b < 42

/-- Up to step `N` no descent accepts what it has read from an internode that is locked (C48). -/
def Calm (strict : Bool) (τ : Nat → St V) (β : Nat → Option (Act V)) (N : Nat) : Prop :=
  ∀ n, n < N → ∀ L i, moves τ β n = some (.inLayer L (.walk i)) → ∀ o r p w x, ((τ n).w.side L).ix.pc i = .chk o r p w x →
    Index.changed strict (((τ n).w.side L).ix.heap.node p) w = false → (((τ n).w.side L).ix.heap.node p).locked = false

theorem NoFail.zero (E : Exec fixed strict τ β) : NoFail τ 0 := by
  intro n hn L i o e
  have : n = 0 := by omega
  subst this
  rw [E.start.tree.side L]
  intro h; cases h

theorem NoFail.sub {m n : Nat} (F : NoFail τ n) (h : m ≤ n) : NoFail τ m := fun k hk => F k (by omega)

/-- The first failure of a split is that of an insert during which other threads have added 42 nodes. -/
theorem first_failure (E : Exec fixed strict τ β) (C : Clean strict τ β N) (S : Small τ N) {L i : Nat} {o : Index.Op Unit} {e : Index.Err}
    (hf : ((τ (N + 1)).w.side L).ix.pc i = .fail o e) : ∃ d v a, Open τ β i (.insert d v) a N ∧ 42 ≤ otherNodes τ β i a N := by
  obtain ⟨d, v, a, h1, h2, h3⟩ := E.failure C hf
  have hs := S N (Nat.le_refl N) L
  have : (((τ N).w.side L).ix.heap.node ((τ N).w.side L).ix.heap.top).ht - 1 < 21 := by
    apply (Nat.pow_lt_pow_iff_right (a := 8) (by decide)).1
    have : (8 : Nat) ^ 21 = 2 ^ 63 := by decide
    omega
  exact ⟨d, v, a, h1, by omega⟩

/-- **C67.** An insert can only fail if other threads add at least 42 nodes while it runs. -/
theorem C67_no_failure (E : Exec fixed strict τ β) : ∀ {N : Nat}, Calm strict τ β N → Small τ N → FewSplits τ β N → NoFail τ N
  | 0, _, _, _ => NoFail.zero E
  | N + 1, hc, S, H => by
    have F := C67_no_failure E (N := N) (fun n hn => hc n (by omega)) (fun n hn => S n (by omega)) (fun i d v a b hb => H i d v a b (by omega))
    have C : Clean strict τ β N := ⟨fun n hn => hc n (by omega), F⟩
    intro n hn L i o e hf
    by_cases g : n ≤ N
    · exact F n g L i o e hf
    · have : n = N + 1 := by omega
      subst this
      obtain ⟨d, v, a, h1, h2⟩ := first_failure E C (fun n hn => S n (by omega)) hf
      have := H i d v a N (by omega) h1
      omega

/-- If calls do not overlap no other thread adds a node. -/
theorem InTurn.others (E : Exec fixed strict τ β) {i a b : Nat} {o : Op V} (h : Open τ β i o a b) (T : InTurn τ b) :
    ∀ n, n ≤ b → otherNodes τ β i a n = 0
  | 0, _ => rfl
  | n + 1, hn => by
    unfold otherNodes
    rw [InTurn.others E h T n (by omega), if_neg]
    rintro ⟨h1, h2, L, h3⟩
    rcases E.side_step n L with g | ⟨j, y, qs, b', e1, _, _, e3, _⟩
    · unfold nodes at h3; rw [g] at h3; omega
    · have hj : ((τ n).ph j).over = false := by
        cases g : ((τ n).ph j).over with
        | false => rfl
        | true => rw [over_next g] at e3; cases e3
      have := T n (by omega) j i hj (h.busy n h1 (by omega))
      subst this
      exact h2 ⟨y, qs, e1⟩

/-- **C67.** If no two calls overlap, no insert fails. -/
theorem C67_in_turn (E : Exec fixed strict τ β) : ∀ {N : Nat}, InTurn τ N → Small τ N → NoFail τ N
  | 0, _, _ => NoFail.zero E
  | N + 1, T, S => by
    have T' : InTurn τ N := fun n hn => T n (by omega)
    have F := C67_in_turn E (N := N) T' (fun n hn => S n (by omega))
    have C := C65_in_turn_clean E N T' F
    intro n hn L i o e hf
    by_cases g : n ≤ N
    · exact F n g L i o e hf
    · have : n = N + 1 := by omega
      subst this
      obtain ⟨d, v, a, h1, h2⟩ := first_failure E C (fun n hn => S n (by omega)) hf
      rw [InTurn.others E h1 T' N (Nat.le_refl N)] at h2
      omega

/-- A layer gets at most one node in a step, so that it takes 2^63 steps to make one that is not small. -/
theorem C67_small (E : Exec fixed strict τ β) (h : N + 2 ≤ 2 ^ 63) : Small τ N := by
  have : ∀ n L, nodes (τ n) L ≤ n + 2 := by
    intro n L
    induction n with
    | zero =>
      unfold nodes
      rw [E.start.tree.side L]; exact Nat.le_refl _
    | succ n ih => have := (E.nodes_le n L).2; omega
  intro n hn L
  have := this n L
  omega

/-! ## On the tree as the code is -/

theorem Agree.others {τ' : Nat → St V} (A : Agree τ τ' N) {i a : Nat} : ∀ {n : Nat}, n ≤ N → otherNodes τ' β i a n = otherNodes τ β i a n
  | 0, _ => rfl
  | n + 1, hn => by
    unfold otherNodes
    rw [Agree.others A (n := n) (by omega), A n (by omega), A (n + 1) hn]

theorem Agree.small {τ' : Nat → St V} (A : Agree τ τ' N) (S : Small τ N) : Small τ' N := fun n hn L => by rw [A n hn]; exact S n hn L

theorem Agree.inTurn {τ' : Nat → St V} (A : Agree τ τ' N) (T : InTurn τ N) : InTurn τ' N := fun n hn i j => by rw [A n hn]; exact T n hn i j

theorem Agree.noFail {τ' : Nat → St V} (A : Agree τ τ' N) (F : NoFail τ N) : NoFail τ' N := fun n hn L i o e => by rw [A n hn]; exact F n hn L i o e

/-- **C67** of the code as it is: an insert can only fail if other threads add at least 42 nodes while it runs. -/
theorem C67_no_failure_all (E : ExecAll fixed strict τ β) (R : Regular τ β N) (hc : Calm strict τ β N) (S : Small τ N) (H : FewSplits τ β N) :
    NoFail τ N := by
  obtain ⟨E', A⟩ := E.plain R
  have A : Agree τ _ N := A
  refine A.symm.noFail (C67_no_failure E' (fun n hn => ?_) (A.small S) fun i d v a b hb h => ?_)
  · rw [A n (by omega), A.moves (by omega)]; exact hc n hn
  · rw [A.others hb]; exact H i d v a b hb (A.symm.open' hb h)

/-- **C67** of the code as it is: with the repair of C48 nothing else is needed. -/
theorem C67_no_failure_repaired_all (E : ExecAll fixed true τ β) (R : Regular τ β N) (S : Small τ N) (H : FewSplits τ β N) : NoFail τ N := by
  refine C67_no_failure_all E R (fun n hn L i ha o r p w x hp h => ?_) S H
  simp only [Index.changed, Bool.true_and, Bool.or_eq_false_iff] at h
  exact h.2

/-- **C67** of the code as it is: if no two calls overlap, no insert fails. -/
theorem C67_in_turn_all (E : ExecAll fixed strict τ β) (R : Regular τ β N) (T : InTurn τ N) (S : Small τ N) : NoFail τ N := by
  obtain ⟨E', A⟩ := E.plain R
  have A : Agree τ _ N := A
  exact A.symm.noFail (C67_in_turn E' (A.inTurn T) (A.small S))

/-- **C67** of the code as it is: a layer with 2^63 nodes takes as many steps. -/
theorem C67_small_all (E : ExecAll fixed strict τ β) (R : Regular τ β N) (h : N + 2 ≤ 2 ^ 63) : Small τ N := by
  obtain ⟨E', A⟩ := E.plain R
  have A : Agree τ _ N := A
  exact A.symm.small (C67_small E' h)

/-- **C65** of the code as it is, without any condition on failures: if no two calls have overlapped, a `get` answers the value of the last
insert of its key, or `None` if there was none. -/
theorem C65_get_in_turn_small_all (E : ExecAll fixed strict τ β) {i a b : Nat} {d : Bytes} {r : Option V} (h : Call τ β i (.get d) a b r)
    (T : InTurn τ (b + 1)) (S : Small τ (b + 1)) (R : Regular τ β (b + 1)) :
    (∃ v j a' b', r = some v ∧ Last τ β d a j a' b' v) ∨ (r = none ∧ Never τ β d a) :=
  C65_get_in_turn_all E h T (C67_in_turn_all E R T S) R

/-- **C65** of the code as it is, without any condition on failures: if no two calls have overlapped, an `insert` returns what the map held for
its key, and afterwards the map has the new value for that key and the old one for every other key. -/
theorem C65_insert_in_turn_small_all (E : ExecAll fixed strict τ β) {i a b : Nat} {d : Bytes} {v : V} {r : Option V}
    (h : Call τ β i (.insert d v) a b r) (T : InTurn τ (b + 1)) (S : Small τ (b + 1)) (R : Regular τ β (b + 1)) :
    r = map τ β d a ∧ ∀ d', map τ β d' (b + 1) = if d' = d then some v else map τ β d' a :=
  C65_insert_in_turn_all E h T (C67_in_turn_all E R T S) R

/-! ## Witnesses -/

theorem others_le (E : Exec fixed strict τ β) {i a : Nat} : ∀ {n : Nat}, (∀ m, m < n → ∀ L, nodes (τ m) L < nodes (τ (m + 1)) L → L = 0) →
    otherNodes τ β i a n + 2 ≤ nodes (τ n) 0
  | 0, _ => by
    unfold nodes
    rw [E.start.tree.side 0]; exact Nat.le_refl _
  | n + 1, h => by
    have ih := others_le E (i := i) (a := a) (n := n) fun m hm => h m (by omega)
    have hm := (E.nodes_le n 0).1
    unfold otherNodes
    split
    · rename_i g
      obtain ⟨_, _, L, g⟩ := g
      have := h n (by omega) L g
      subst this
      omega
    · omega

theorem others_ge (E : Exec fixed strict τ β) {i a m : Nat} (ha : a < m) : ∀ k, (∀ n, m ≤ n → n < m + k → ¬ Runs β i n) →
    nodes (τ (m + k)) 0 ≤ nodes (τ m) 0 + otherNodes τ β i a (m + k)
  | 0, _ => Nat.le_add_right _ _
  | k + 1, h => by
    have ih := others_ge E ha k fun n h1 h2 => h n h1 (by omega)
    have hm := (E.nodes_le (m + k) 0).2
    rw [← Nat.add_assoc]
    unfold otherNodes
    by_cases g : nodes (τ (m + k)) 0 < nodes (τ (m + k + 1)) 0
    · rw [if_pos ⟨by omega, h _ (by omega) (by omega), 0, g⟩]; omega
    · omega

/-- The next step is one in the first layer. -/
def firstLayer (as : List (Act Nat)) (n : Nat) (s : St Nat) : Bool :=
  match as[n]? with
  | some (.run j y qs) => match (next s j y qs).1 with
    | some (.inLayer L _) => L == 0
    | _ => true
  | _ => true

/-- Thread 1 begins an insert before thread 0 splits the leaf. -/
def between : List (Act Nat) := filled.take 420 ++ [.call 1 (.insert (key8 50) 7), .run 1 3 [], .run 1 3 []] ++ filled.drop 420

set_option maxRecDepth 100000 in
/-- An insert during which another thread adds nodes meets the hypotheses. -/
theorem C67_witness :
    let τ := trace false false empty between
    let β := fun n => between[n]?
    Exec false false τ β ∧ Calm false τ β 476 ∧ Small τ 476 ∧ FewSplits τ β 476 ∧ Open τ β 1 (.insert (key8 50) 7) 420 476 ∧
      otherNodes τ β 1 420 476 = 2 := by
  have hl : between.length = 476 := by decide +kernel
  have E := trace_exec (fixed := false) (strict := false) between
  have C : Clean false (trace false false empty between) (fun n => between[n]?) 476 := clean_trace (as := between) (by decide +kernel)
  have hw : ∀ m, m < 476 → ∀ L, nodes (trace false false empty between m) L < nodes (trace false false empty between (m + 1)) L → L = 0 := by
    intro m hm L g
    have w : firstLayer between m (trace false false empty between m) = true := by
      have := walk_spec (f := act false false) (p := firstLayer between) (k := 0) (s := empty) (as := between) (by decide +kernel) (n := m) (by omega)
      simpa [trace] using this
    rcases E.side_step m L with k | ⟨j, y, qs, b, e1, _, _, e3, _⟩
    · unfold nodes at g; rw [k] at g; omega
    · unfold firstLayer at w
      rw [e1] at w
      dsimp only at w
      rw [e3] at w
      simpa using w
  have n1 : nodes (trace false false empty between 476) 0 = 4 := by decide +kernel
  have n0 : nodes (trace false false empty between 423) 0 = 2 := by decide +kernel
  have mono : ∀ k m, nodes (trace false false empty between m) 0 ≤ nodes (trace false false empty between (m + k)) 0 := by
    intro k m
    induction k with
    | zero => exact Nat.le_refl _
    | succ k ih => exact Nat.le_trans ih (E.nodes_le (m + k) 0).1
  have w1 : ∀ n, n ≤ 476 → (fun n (s : St Nat) => if 420 < n then !(s.ph 1).over else true) n (trace false false empty between n) = true := by
    intro n hn
    have := walk_spec (f := act false false) (p := fun n (s : St Nat) => if 420 < n then !(s.ph 1).over else true) (k := 0) (s := empty) (as := between)
      (by decide +kernel) (n := n) (by omega)
    simpa [trace] using this
  refine ⟨E, C.calm, C67_small E (by decide), fun i d v a b hb _ => ?_, ⟨by with_unfolding_all rfl, by decide +kernel, by omega, fun n h1 h2 => ?_⟩, ?_⟩
  · have := others_le E (i := i) (a := a) (n := b) fun m hm => hw m (by omega)
    have := mono (476 - b) b
    rw [show b + (476 - b) = 476 by omega] at this
    omega
  · have := w1 n h2
    simpa [h1] using this
  · have h1 := others_le E (i := 1) (a := 420) (n := 476) hw
    have h2 := others_ge E (i := 1) (a := 420) (m := 423) (by omega) 53 fun n g1 g2 => by
      rintro ⟨y, qs, e⟩
      have : (between.drop 423).all (fun a => match a with | .run j _ _ => j == 0 | _ => true) = true := by decide +kernel
      have := List.all_eq_true.1 this (.run 1 y qs) (by
        refine List.mem_of_getElem? (i := n - 423) ?_
        rw [List.getElem?_drop, show 423 + (n - 423) = n by omega]; exact e)
      cases this
    rw [show 423 + 53 = 476 by decide] at h2
    omega

set_option maxRecDepth 100000 in
/-- Calls in turn, one of which splits a leaf and makes a root. -/
theorem C67_in_turn_witness :
    let τ := traceAll false false empty filled
    let β := fun n => filled[n]?
    ExecAll false false τ β ∧ Regular τ β 473 ∧ InTurn τ 473 ∧ Small τ 473 ∧ Call τ β 0 (.insert (key8 100) 100) 408 472 none ∧ nodes (τ 473) 0 = 4 := by
  have E := traceAll_exec (fixed := false) (strict := false) filled
  have R := C63_regular_witness.2.1
  have A : Agree (trace false false empty filled) (traceAll false false empty filled) 473 := fun n hn => by
    rw [← plain_trace]; exact ((E.plain R).2 n hn).symm
  have hl : filled.length = 473 := by decide +kernel
  have T : InTurn (trace false false empty filled) filled.length := inTurn_of (by decide +kernel) (by decide +kernel)
  have w0 : ∀ n, n ≤ filled.length → during 0 408 472 none n (traceAll false false empty filled n) = true := by
    intro n hn
    have := walk_spec (f := actAll false false) (p := during 0 408 472 none) (k := 0) (s := empty) (as := filled) (by decide +kernel) hn
    simpa [traceAll] using this
  exact ⟨E, R, A.inTurn fun n hn => T n (by omega), C67_small_all E R (by decide), during_call w0 (by with_unfolding_all rfl) (by omega) (by omega), by decide +kernel⟩

end Verif.Ops
