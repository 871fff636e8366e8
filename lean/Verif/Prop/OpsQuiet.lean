import Verif.Prop.OpsAll
import Verif.Proof.OpsQuiet
set_option linter.unusedSimpArgs false
set_option linter.unusedVariables false
/-!
# C65: what a `get` answers that overlaps no insert, and calls made in turn

The conditions of `C59_get_linearizable` speak about what happens in the tree during the call.  If no insert is under way during the
call they hold, and if calls do not overlap at all no descent accepts anything from a locked internode either.
-/
namespace Verif.Ops
open Verif.Internode (upd upd_same upd_ne)
open Verif.Spec (Bytes)
variable {V : Type} {fixed strict : Bool} {τ : Nat → St V} {β : Nat → Option (Act V)} {N : Nat}

/-- No insert is under way from step `a` to step `b`. -/
def NoInsert (τ : Nat → St V) (a b : Nat) : Prop := ∀ n, a ≤ n → n ≤ b → ∀ i, ¬ Inserting (τ n) i

/-- Thread `i` has inserted `v` for `d` from step `a` to step `b`, which is before step `e`, and no insert of `d` that was called after that
has returned before step `e`. -/
structure Last (τ : Nat → St V) (β : Nat → Option (Act V)) (d : Bytes) (e i a b : Nat) (v : V) : Prop where
  call : ∃ r, Call τ β i (.insert d v) a b r
  lt : b < e
  newest : ∀ j v' a' b' r', Call τ β j (.insert d v') a' b' r' → b' < e → ¬ b < a'

/-- No insert of `d` has returned before step `e`. -/
def Never (τ : Nat → St V) (β : Nat → Option (Act V)) (d : Bytes) (e : Nat) : Prop :=
  ∀ j v a b r, Call τ β j (.insert d v) a b r → ¬ b < e

/-- **C65.** A `get` during which no insert is under way answers what the map held for its key when it was called. -/
theorem C65_get_quiet (E : Exec fixed strict τ β) {i a b : Nat} {d : Bytes} {r : Option V} (h : Call τ β i (.get d) a b r)
    (hq : NoInsert τ a b) (C : Clean strict τ β (b + 1)) : r = map τ β d a := by
  have C' : Clean strict τ β b := Whole.Clean.sub C (by omega)
  obtain ⟨n, h1, h2, h3⟩ := C59_get_linearizable E h C (quiet_few E C' fun n g1 g2 => hq n g1 (by omega))
    (.inr (quiet_unmarked E h.busy C' fun n g1 g2 => hq n g1 (by omega))) (fun j g1 g2 => quiet_transit E C' g2 (hq j g1 g2) d)
  rw [← h3]
  refine map_const (by omega) fun m m1 m2 => ?_
  refine Classical.byContradiction fun hne => ?_
  obtain ⟨j, c, v, k1, k2, _⟩ := C59_only_inserts_write E (Whole.Clean.sub C (by omega)) hne
  exact hq m m1 (by omega) j ⟨k2.busy m k2.lt (Nat.le_refl m), d, v, k2.op E m k2.lt (Nat.le_succ m)⟩

theorem map_last {d : Bytes} {n : Nat} {v : V} (h : map τ β d n = some v) :
    ∃ k, k < n ∧ stored τ β k d = some v ∧ ∀ m, k < m → m < n → stored τ β m d = none := by
  induction n with
  | zero => cases h
  | succ n ih =>
    cases e : stored τ β n d with
    | some v' =>
      rw [map_stored e] at h
      exact ⟨n, Nat.lt_succ_self n, by rw [e, h], fun m h1 h2 => by omega⟩
    | none =>
      rw [map_still e] at h
      obtain ⟨k, h1, h2, h3⟩ := ih h
      refine ⟨k, by omega, h2, fun m m1 m2 => ?_⟩
      by_cases g : m = n
      · rw [g]; exact e
      · exact h3 m m1 (by omega)

theorem map_never {d : Bytes} {n : Nat} (h : map τ β d n = none) : ∀ m, m < n → stored τ β m d = none := by
  induction n with
  | zero => intro m hm; cases hm
  | succ n ih =>
    cases e : stored τ β n d with
    | some v' => rw [map_stored e] at h; cases h
    | none =>
      rw [map_still e] at h
      intro m hm
      by_cases g : m = n
      · rw [g]; exact e
      · exact ih h m (by omega)

/-- An insert that is under way at step `n` has returned when no insert is under way any more. -/
theorem Open.past (E : Exec fixed strict τ β) {i a n : Nat} {d : Bytes} {v : V} (h : Open τ β i (.insert d v) a n) {e : Nat} (he : n ≤ e)
    (hq : ∀ i, ¬ Inserting (τ e) i) : ∃ b r, n ≤ b ∧ b < e ∧ Call τ β i (.insert d v) a b r := by
  cases g : ((τ e).ph i).over with
  | true => exact h.returns E he g
  | false =>
    obtain ⟨c, hc⟩ := E.opened e i g
    cases eo : (τ e).op i with
    | insert d' v' => exact absurd ⟨g, d', v', eo⟩ (hq i)
    | get d' =>
      rw [eo] at hc
      have hn : n < c := by
        refine Classical.byContradiction fun k => ?_
        by_cases k' : n = c
        · subst k'
          have := h.busy n h.lt (Nat.le_refl n)
          rw [hc.free] at this; cases this
        · have h1 := hc.op E n (by omega) (by omega)
          have h2 := h.op E n h.lt (by omega)
          rw [h1] at h2; cases h2
      obtain ⟨b, r, h1, h2, h3⟩ := h.returns E (show n ≤ c by omega) hc.free
      exact ⟨b, r, h1, by have := hc.lt; omega, h3⟩

/-- **C65.** A `get` during which no insert is under way answers the value of an insert of its key that has returned before, and after
which no other insert of the key has been called and has returned; or `None`, and no insert of its key has returned. -/
theorem C65_get_last (E : Exec fixed strict τ β) {i a b : Nat} {d : Bytes} {r : Option V} (h : Call τ β i (.get d) a b r)
    (hq : NoInsert τ a b) (C : Clean strict τ β (b + 1)) :
    (∃ v j a' b', r = some v ∧ Last τ β d a j a' b' v) ∨ (r = none ∧ Never τ β d a) := by
  have hlt := h.busy.lt
  rw [C65_get_quiet E h hq C]
  have st : ∀ j v a' b' r', Call τ β j (.insert d v) a' b' r' → b' < a → ∃ n, a' < n ∧ n ≤ b' ∧ stored τ β n d = some v := by
    intro j v a' b' r' hc hb
    obtain ⟨n, h1, h2, _, h4, _⟩ := C59_insert_once E hc (Whole.Clean.sub C (by omega))
    exact ⟨n, h1, h2, by rw [h4, if_pos rfl]⟩
  cases e : map τ β d a with
  | none =>
    refine .inr ⟨rfl, fun j v a' b' r' hc hb => ?_⟩
    obtain ⟨n, h1, h2, h3⟩ := st j v a' b' r' hc hb
    rw [map_never e n (by omega)] at h3; cases h3
  | some v =>
    obtain ⟨k, h1, h2, h3⟩ := map_last e
    obtain ⟨j, a', g1, g2⟩ := E.writer (Whole.Clean.sub C (by omega)) h2
    obtain ⟨b', r', k1, k2, k3⟩ := g2.past E (Nat.le_of_lt h1) (hq a (Nat.le_refl a) (by omega))
    refine .inl ⟨v, j, a', b', rfl, ⟨r', k3⟩, k2, fun j' v' a1 b1 r1 hc hb hn => ?_⟩
    obtain ⟨n, n1, n2, n3⟩ := st j' v' a1 b1 r1 hc hb
    rw [h3 n (by omega) (by omega)] at n3; cases n3

/-! ## Calls made in turn -/

/-- No two calls overlap. -/
def InTurn (τ : Nat → St V) (N : Nat) : Prop :=
  ∀ n, n ≤ N → ∀ i j, ((τ n).ph i).over = false → ((τ n).ph j).over = false → i = j

/-- No propagation of a split has ended in an error (C49). -/
def NoFail (τ : Nat → St V) (N : Nat) : Prop := ∀ n, n ≤ N → ∀ L i o e, ((τ n).w.side L).ix.pc i ≠ .fail o e

/-- **C65.** If no two calls overlap, no descent accepts what it has read from an internode that is locked: the code is safe from C48. -/
theorem C65_in_turn_clean (E : Exec fixed strict τ β) : ∀ N, InTurn τ N → NoFail τ N → Clean strict τ β N
  | 0, _, F => ⟨fun n hn => absurd hn (Nat.not_lt_zero n), F⟩
  | N + 1, T, F => by
    have C := C65_in_turn_clean E N (fun n hn => T n (by omega)) (fun n hn => F n (by omega))
    refine ⟨fun n hn L i ha o r p w x hp hc => ?_, F⟩
    by_cases hlt : n < N
    · exact C.calm n hlt L i ha o r p w x hp hc
    · have hn : n = N := by omega
      subst hn
      cases hl : ((tree τ n).side L |>.ix.heap.node p).locked with
      | false => rfl
      | true =>
        exfalso
        have K := (E.know C (Nat.le_refl n)).ok
        have P := E.phases C n (Nat.le_refl n)
        have hov : ((τ n).ph i).over = false := by
          cases e : β n with
          | none => rw [(none_eq E e).2] at ha; cases ha
          | some y =>
            cases y with
            | call j o => rw [(call_eq E e).2.2.1] at ha; cases ha
            | run j y qs =>
              rw [(run_eq E e).2.2.2.2] at ha
              have : i = j := by
                rcases next_who ha with g | g
                · exact Option.some.inj g
                · cases g
              subst this
              cases g : ((τ n).ph i).over with
              | false => rfl
              | true => rw [over_next g] at ha; cases ha
        have hu : (τ n).w.f.up L = true := by
          cases hu : (τ n).w.f.up L with
          | true => rfl
          | false =>
            have hp : ((τ n).w.side L).ix.pc i = .chk o r p w x := hp
            rw [K.unused L hu] at hp; cases hp
        have I := (K.ok L (K.basic.made L hu)).F.I
        have ok := I.ok i
        rw [show ((τ n).w.lay L).s.ix.pc i = .chk o r p w x from hp] at ok
        obtain ⟨j, hj⟩ := I.held p ok.2.1 hl
        have hj : p ∈ Index.holds (((τ n).w.side L).ix.pc j) := hj
        by_cases g : j = i
        · subst g
          rw [show ((τ n).w.side L).ix.pc j = .chk o r p w x from hp] at hj; cases hj
        · have ho : ((τ n).ph j).over = true := by
            cases k : ((τ n).ph j).over with
            | true => rfl
            | false => exact absurd (T n (by omega) j i k hov) g
          rcases out_cases (over_home (P j) ho L).out with k | ⟨o', r', k⟩ <;> rw [k] at hj <;> cases hj

theorem InTurn.noInsert (E : Exec fixed strict τ β) {i a b : Nat} {d : Bytes} (h : Open τ β i (.get d) a b) (T : InTurn τ b) : NoInsert τ a b := by
  have hlt := h.lt
  intro n h1 h2 j hj
  by_cases e : n = a
  · subst e
    have hji : j ≠ i := fun g => by
      have := hj.1
      rw [g, h.free] at this; cases this
    obtain ⟨_, _, _, g⟩ := call_eq E h.call
    rcases g with ⟨g, _⟩ | ⟨_, g1, g2⟩
    · rw [h.free] at g; cases g
    · refine hji (T (n + 1) (by omega) j i ?_ (h.busy _ (by omega) (by omega)))
      rw [g2, upd_ne _ _ _ hji]; exact hj.1
  · have := T n h2 j i hj.1 (h.busy n (by omega) h2)
    subst this
    obtain ⟨d', v', g⟩ := hj.2
    rw [h.op E n (by omega) (by omega)] at g; cases g

/-- **C65.** If no two calls have overlapped, the code as it is: a `get` answers the value of the last insert of its key, or `None` if there
was none. -/
theorem C65_get_in_turn (E : Exec fixed strict τ β) {i a b : Nat} {d : Bytes} {r : Option V} (h : Call τ β i (.get d) a b r)
    (T : InTurn τ (b + 1)) (F : NoFail τ (b + 1)) :
    (∃ v j a' b', r = some v ∧ Last τ β d a j a' b' v) ∨ (r = none ∧ Never τ β d a) :=
  C65_get_last E h (InTurn.noInsert E h.busy fun n hn => T n (by omega)) (C65_in_turn_clean E (b + 1) T F)

/-- **C65.** If no two calls have overlapped, an `insert` returns what the map held for its key when it was called, and afterwards the map has
the new value for that key and the old one for every other key. -/
theorem C65_insert_in_turn (E : Exec fixed strict τ β) {i a b : Nat} {d : Bytes} {v : V} {r : Option V} (h : Call τ β i (.insert d v) a b r)
    (T : InTurn τ (b + 1)) (F : NoFail τ (b + 1)) :
    r = map τ β d a ∧ ∀ d', map τ β d' (b + 1) = if d' = d then some v else map τ β d' a := by
  have C := C65_in_turn_clean E (b + 1) T F
  have hlt := h.busy.lt
  obtain ⟨n, h1, h2, h3, h4, h5, h6, h7, h8⟩ := C59_insert_once E h C
  have other : ∀ d' m, a ≤ m → m ≤ b → m ≠ n → map τ β d' (m + 1) = map τ β d' m := by
    intro d' m m1 m2 m3
    refine Classical.byContradiction fun hne => ?_
    obtain ⟨j, c, v', k1, k2, _⟩ := C59_only_inserts_write E (Whole.Clean.sub C (by omega)) hne
    by_cases e : m = a
    · subst e
      obtain ⟨y, qs, k1⟩ := k1
      rw [h.busy.call] at k1; cases k1
    · have := T m (by omega) j i (k2.busy m k2.lt (Nat.le_refl m)) (h.busy.busy m (by omega) m2)
      subst this
      exact hne (map_still (h8 m (by omega) m2 m3 k1 d'))
  have before : ∀ d', map τ β d' n = map τ β d' a := fun d' => map_const (by omega) fun m m1 m2 => other d' m m1 (by omega) (by omega)
  have later : ∀ d', map τ β d' (b + 1) = map τ β d' (n + 1) := fun d' => map_const (by omega) fun m m1 m2 => other d' m (by omega) (by omega) (by omega)
  refine ⟨by rw [← h5, before], fun d' => ?_⟩
  rw [later]
  by_cases g : d' = d
  · subst g; rw [if_pos rfl]; exact h6
  · rw [if_neg g, h7 d' g, before]

/-! ## On the tree as the code is -/

/-- **C65** of the code as it is: `C65_get_last`. -/
theorem C65_get_last_all (E : ExecAll fixed strict τ β) {i a b : Nat} {d : Bytes} {r : Option V} (h : Call τ β i (.get d) a b r)
    (hq : NoInsert τ a b) (C : Clean strict τ β (b + 1)) (R : Regular τ β (b + 1)) :
    (∃ v j a' b', r = some v ∧ Last τ β d a j a' b' v) ∨ (r = none ∧ Never τ β d a) := by
  obtain ⟨E', A⟩ := E.plain R
  have A : Agree τ _ (b + 1) := A
  have hab := h.busy.lt
  rcases C65_get_last E' (Agree.call A (by omega) h) (fun n h1 h2 i => by rw [A n (by omega)]; exact hq n h1 h2 i) (A.clean (Nat.le_refl _) C) with
    ⟨v, j, a', b', h1, ⟨⟨r', h2⟩, h3, h4⟩⟩ | ⟨h1, h2⟩
  · exact .inl ⟨v, j, a', b', h1, ⟨r', Agree.call A.symm (by omega) h2⟩, h3, fun j' v' a1 b1 r1 hc hb => h4 j' v' a1 b1 r1 (A.call (by omega) hc) hb⟩
  · exact .inr ⟨h1, fun j v a1 b1 r1 hc hb => h2 j v a1 b1 r1 (A.call (by omega) hc) hb⟩

/-- **C65** of the code as it is: `C65_in_turn_clean`. -/
theorem C65_in_turn_clean_all (E : ExecAll fixed strict τ β) (T : InTurn τ N) (F : NoFail τ N) (R : Regular τ β N) : Clean strict τ β N := by
  obtain ⟨E', A⟩ := E.plain R
  have A : Agree τ _ N := A
  refine A.symm.clean (Nat.le_refl _) (C65_in_turn_clean E' N (fun n hn i j => ?_) (fun n hn => ?_))
  · rw [A n hn]; exact T n hn i j
  · rw [A n hn]; exact F n hn

/-- **C65** of the code as it is: `C65_get_in_turn`. -/
theorem C65_get_in_turn_all (E : ExecAll fixed strict τ β) {i a b : Nat} {d : Bytes} {r : Option V} (h : Call τ β i (.get d) a b r)
    (T : InTurn τ (b + 1)) (F : NoFail τ (b + 1)) (R : Regular τ β (b + 1)) :
    (∃ v j a' b', r = some v ∧ Last τ β d a j a' b' v) ∨ (r = none ∧ Never τ β d a) := by
  obtain ⟨E', A⟩ := E.plain R
  have A : Agree τ _ (b + 1) := A
  have hq := InTurn.noInsert E' (A.open' (Nat.le_succ b) h.busy) (fun n hn i j => by rw [A n (by omega)]; exact T n (by omega) i j)
  exact C65_get_last_all E h (fun n h1 h2 i => by rw [← A n (by omega)]; exact hq n h1 h2 i) (C65_in_turn_clean_all E T F R) R

/-- **C65** of the code as it is: `C65_insert_in_turn`. -/
theorem C65_insert_in_turn_all (E : ExecAll fixed strict τ β) {i a b : Nat} {d : Bytes} {v : V} {r : Option V} (h : Call τ β i (.insert d v) a b r)
    (T : InTurn τ (b + 1)) (F : NoFail τ (b + 1)) (R : Regular τ β (b + 1)) :
    r = map τ β d a ∧ ∀ d', map τ β d' (b + 1) = if d' = d then some v else map τ β d' a := by
  obtain ⟨E', A⟩ := E.plain R
  have A : Agree τ _ (b + 1) := A
  have hab := h.busy.lt
  have := C65_insert_in_turn E' (A.call (Nat.lt_succ_self b) h) (fun n hn i j => by rw [A n hn]; exact T n hn i j) (fun n hn => by rw [A n hn]; exact F n hn)
  obtain ⟨h1, h2⟩ := this
  refine ⟨by rw [h1, A.map (by omega)], fun d' => ?_⟩
  have := h2 d'
  rw [A.map (by omega), A.map (by omega)] at this
  exact this

/-! ## C63 again -/

/-- **C63, partial.** An insert that has returned is visible to a `get` during which no insert is under way; earlier calls may have
overlapped as they like, but for `Clean`. -/
theorem C63_visible_quiet_partial (E : Exec fixed strict τ β) {i j a b a' b' : Nat} {d : Bytes} {v : V} {r r' : Option V}
    (h : After1 τ β i j a b a' b' d v r r') (hq : NoInsert τ a' b') (C : Clean strict τ β (b' + 1)) : r' = some v := by
  have C' : Clean strict τ β b' := Whole.Clean.sub C (by omega)
  exact C63_visible_partial E h C (quiet_few E C' fun n g1 g2 => hq n g1 (by omega))
    (.inr (quiet_unmarked E h.get.busy C' fun n g1 g2 => hq n g1 (by omega))) (fun j g1 g2 => quiet_transit E C' g2 (hq j g1 g2) d)

/-- With the repair of `has_changed` nothing is accepted from a locked internode. -/
theorem clean_strict (F : NoFail τ N) : Clean true τ β N := by
  refine ⟨fun n hn L i ha o r p w x hp hc => ?_, F⟩
  simp only [Index.changed, Bool.true_and, Bool.or_eq_false_iff] at hc
  exact hc.2

/-- **C63, partial.** With the repairs of C46 and C48 an insert that has returned is visible to every later `get`, unless its key goes on after
eight bytes (or is empty) and a value is being turned into a layer on the way to it. -/
theorem C63_visible_repaired_partial (E : Exec true true τ β) {i j a b a' b' : Nat} {d : Bytes} {v : V} {r r' : Option V}
    (h : After1 τ β i j a b a' b' d v r r') (F : NoFail τ (b' + 1)) (hr : Forest.Few (Whole.leaves (tree τ)) a' b')
    (hz : (d ≠ [] ∧ d.length ≤ 8) ∨ ∀ j, a' ≤ j → j ≤ b' → ¬ Forest.InTransit (τ j).w.f d) : r' = some v := by
  refine C63_visible_partial E h (clean_strict F) hr (.inl rfl) fun k h1 h2 => ?_
  rcases hz with g | g
  · exact no_transit_short g.1 g.2
  · exact g k h1 h2

/-! ## An execution with calls in turn -/

/-- Only threads 0 and 1 do anything. -/
def two : Act V → Bool
  | .call i _ => i < 2
  | .run i _ _ => i < 2

theorem two_idle {as : List (Act V)} (h : as.all two = true) {s : St V} {i : Nat} (hi : 2 ≤ i) (hs : s.ph i = .idle) :
    (as.foldl (act fixed strict) s).ph i = .idle := by
  induction as generalizing s with
  | nil => exact hs
  | cons a as ih =>
    simp only [List.all_cons, Bool.and_eq_true] at h
    refine ih h.2 ?_
    have h1 := h.1
    cases a with
    | call j o =>
      have : i ≠ j := by simp only [two, decide_eq_true_eq] at h1; omega
      simp only [act]
      split
      · simp only [upd_ne _ _ _ this]; exact hs
      · exact hs
    | run j y qs =>
      have : i ≠ j := by simp only [two, decide_eq_true_eq] at h1; omega
      simp only [act, upd_ne _ _ _ this]; exact hs

/-- Not both threads are in a call. -/
def oneOf (_ : Nat) (s : St Nat) : Bool := (s.ph 0).over || (s.ph 1).over

theorem inTurn_of {as : List (Act Nat)} (h2 : as.all two = true) (h : walk (act fixed strict) oneOf 0 empty as = true) :
    InTurn (trace fixed strict empty as) as.length := by
  intro n hn i j hi hj
  have hw : oneOf n (trace fixed strict empty as n) = true := by
    have := walk_spec h hn
    simpa [trace] using this
  simp only [oneOf, Bool.or_eq_true] at hw
  have lt : ∀ i, ((trace fixed strict empty as n).ph i).over = false → i < 2 := by
    intro i hi
    refine Classical.byContradiction fun g => ?_
    have e : (trace fixed strict empty as n).ph i = .idle := by
      refine two_idle ?_ (by omega) rfl
      rw [List.all_eq_true] at h2 ⊢
      exact fun a ha => h2 a (List.mem_of_mem_take ha)
    rw [e] at hi; cases hi
  have h1 := lt i hi
  have h2 := lt j hj
  have c : ∀ k, k < 2 → k = 0 ∨ k = 1 := by omega
  rcases c i h1 with rfl | rfl <;> rcases c j h2 with rfl | rfl
  · rfl
  · rcases hw with g | g
    · rw [g] at hi; cases hi
    · rw [g] at hj; cases hj
  · rcases hw with g | g
    · rw [g] at hj; cases hj
    · rw [g] at hi; cases hi
  · rfl

/-- Thread 0 fills the leaf and splits it (C62); then thread 1 looks up the key in the new leaf. -/
def turned : List (Act Nat) := filled ++ .call 1 (.get (key8 100)) :: List.replicate 40 (.run 1 2 [])

set_option maxRecDepth 100000 in
theorem turned_clean : Clean false (trace false false empty turned) (fun n => turned[n]?) 514 :=
  clean_trace (as := turned) (by decide +kernel)

set_option maxRecDepth 100000 in
/-- The lookup goes through an internode; it, and the insert that splits the leaf, meet the hypotheses of C65. -/
theorem C65_witness :
    let τ := trace false false empty turned
    let β := fun n => turned[n]?
    Exec false false τ β ∧ InTurn τ 504 ∧ NoFail τ 504 ∧ Call τ β 0 (.insert (key8 100) 100) 408 472 none ∧
      Call τ β 1 (.get (key8 100)) 473 503 (some 100) ∧ NoInsert τ 473 503 := by
  have T : InTurn (trace false false empty turned) 514 := inTurn_of (by decide +kernel) (by decide +kernel)
  have w0 : ∀ n, n ≤ turned.length → during 0 408 472 none n (trace false false empty turned n) = true := by
    intro n hn
    have := walk_spec (f := act false false) (p := during 0 408 472 none) (k := 0) (s := empty) (as := turned) (by decide +kernel) hn
    simpa [trace] using this
  have w1 : ∀ n, n ≤ turned.length → during 1 473 503 (some 100) n (trace false false empty turned n) = true := by
    intro n hn
    have := walk_spec (f := act false false) (p := during 1 473 503 (some 100)) (k := 0) (s := empty) (as := turned) (by decide +kernel) hn
    simpa [trace] using this
  have hl : turned.length = 514 := by decide +kernel
  have c1 : Call (trace false false empty turned) (fun n => turned[n]?) 1 (.get (key8 100)) 473 503 (some 100) :=
    during_call w1 (by with_unfolding_all rfl) (by omega) (by omega)
  refine ⟨trace_exec _, fun n hn => T n (by omega), fun n hn L i o e => turned_clean.done n (by omega) L i o e,
    during_call w0 (by with_unfolding_all rfl) (by omega) (by omega), c1,
    InTurn.noInsert (trace_exec _) c1.busy fun n hn => T n (by omega)⟩

set_option maxRecDepth 100000 in
/-- The same calls, for `C63_visible_quiet_partial`. -/
theorem C63_quiet_witness :
    After1 (trace false false empty turned) (fun n => turned[n]?) 0 1 408 472 473 503 (key8 100) 100 none (some 100) ∧
      NoInsert (trace false false empty turned) 473 503 ∧ Clean false (trace false false empty turned) (fun n => turned[n]?) 504 :=
  ⟨after_of (f := act false false) (as := turned) (by decide +kernel) (by with_unfolding_all rfl) (by with_unfolding_all rfl) (by omega) (by omega) (by omega)
    (by decide +kernel) (by decide +kernel), C65_witness.2.2.2.2.2, Whole.Clean.sub turned_clean (by omega)⟩

set_option maxRecDepth 100000 in
/-- The same calls with the repairs, for `C63_visible_repaired_partial`. -/
theorem C63_repaired_witness :
    let τ := trace true true empty turned
    Exec true true τ (fun n => turned[n]?) ∧ After1 τ (fun n => turned[n]?) 0 1 408 472 473 503 (key8 100) 100 none (some 100) ∧ NoFail τ 504 ∧
      Forest.Few (Whole.leaves (tree τ)) 473 503 ∧ (key8 100 ≠ [] ∧ (key8 100).length ≤ 8) := by
  have C : Clean true (trace true true empty turned) (fun n => turned[n]?) 514 := clean_trace (as := turned) (by decide +kernel)
  exact ⟨trace_exec _, after_of (f := act true true) (as := turned) (by decide +kernel) (by with_unfolding_all rfl) (by with_unfolding_all rfl) (by omega)
    (by omega) (by omega) (by decide +kernel) (by decide +kernel), fun n hn L i o e => C.done n (by omega) L i o e, Forest.few_of (by decide), by decide⟩

end Verif.Ops
