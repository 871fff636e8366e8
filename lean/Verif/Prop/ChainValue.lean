import Verif.Proof.ChainValue
/-!
# Lookups among splits are right about values (C56)
-/
namespace Verif.Chain
open Verif.Perm (size get)
open Verif.Race (SlotIs RPc Out)
open Verif.Cas (In not_frozen)
variable {V : Type}

/-- What a lookup answers when the map holds `m` for the key. -/
def answer : Option V → Out V
  | some v => .value v
  | none => .absent

/-- Every execution is made of steps. -/
theorem Exec.steps {f : Bool} {σ : Nat → St V} (h : Exec f σ) : ∃ α, Steps f σ α := by
  have : ∀ n, ∃ a : Option (Act V), σ (n + 1) = match a with | none => σ n | some a => act f (σ n) a := by
    intro n
    rcases h.2 n with e | ⟨a, e⟩
    · exact ⟨none, e⟩
    · exact ⟨some a, e⟩
  exact ⟨fun n => (this n).choose, fun n => (this n).choose_spec⟩

/-- What is held is there. -/
theorem Holds.present {s : St V} {k : Key} {r : Out V} (h : Holds s k r) : Present s k := by
  obtain ⟨x, j, h1, h2, h3, h4⟩ := h
  rcases shown_cases h4 with ⟨v, h5, h6, _⟩ | ⟨q, h5, h6, _⟩
  · exact ⟨x, j, h1, h2, h3, .inl ⟨h6, v, h5⟩⟩
  · exact ⟨x, j, h1, h2, h3, .inr ⟨h6, q, h5⟩⟩

theorem Present.holds {s : St V} {k : Key} (h : Present s k) : ∃ r, Holds s k r := by
  obtain ⟨x, j, h1, h2, h3, ⟨h6, v, h5⟩ | ⟨h6, q, h5⟩⟩ := h
  · exact ⟨_, x, j, h1, h2, h3, shown_val h5 h6⟩
  · exact ⟨_, x, j, h1, h2, h3, shown_layer h5 h6⟩

theorem Holds.ne {s : St V} {k : Key} {r : Out V} (h : Holds s k r) : r ≠ .absent ∧ r ≠ .misread := by
  obtain ⟨x, j, h1, h2, h3, h4⟩ := h
  rcases shown_cases h4 with ⟨v, _, _, rfl⟩ | ⟨q, _, _, rfl⟩ <;> simp

/-- **C56.** A lookup that runs while leaves are inserted into, updated and split, and while values are turned into sublayers,
answers "absent", or with a value that was the last one written for the key at some moment of the lookup, or with the
sublayer that was responsible for the key at some moment of the lookup.  It never mistakes a pointer for something else, never
returns a value of another key and never one that was replaced before the lookup began.  `contents` is changed by inserts,
updates and conversions only: splits move values without altering them.  Fewer than `2^19` critical sections may end on a leaf
during the lookup.  The empty key is excepted while a value under eight zero bytes is being converted (C45). -/
theorem C56_found_value_is_current {f : Bool} {σ : Nat → St V} (h : Exec f σ) {α : Nat → Option (Act V)} (hα : Steps f σ α)
    {i a b : Nat} {k : Key} {r : Out V} {saw : Bool} (hl : Lookup σ i a b k r saw)
    (hr : ∀ x, releases σ x b - releases σ x a < 2 ^ 19)
    (hz : k.currentLen = 0 → ∀ j, a ≤ j → j ≤ b → ¬ InTransit (σ j) k) :
    r = .absent ∨ (r ≠ .misread ∧ ∃ j, a ≤ j ∧ j ≤ b ∧ contents σ α k j = r) := by
  have ht := h.trail hl hr hz hl.le (Nat.le_refl b)
  rw [hl.ends] at ht
  rcases ht.2 with e | ⟨j, h1, h2, h3⟩
  · exact .inl e
  · exact .inr ⟨h3.ne.2, j, h1, h2, h.holds hα h3⟩

/-- **C56.** Unless its last load of a next pointer found that pointer marked (the failure of C31), or if the lookup is
repaired to search again in that case, and unless a value under the next eight bytes of the key is being converted meanwhile
(the failure of C29), a lookup is linearizable: it answers what the ideal map said about the key at one moment of the
lookup. -/
theorem C56_lookup_linearizable {f : Bool} {σ : Nat → St V} (h : Exec f σ) {α : Nat → Option (Act V)} (hα : Steps f σ α)
    {i a b : Nat} {k : Key} {r : Out V} {saw : Bool} (hl : Lookup σ i a b k r saw)
    (hr : ∀ x, releases σ x b - releases σ x a < 2 ^ 19) (hs : f = true ∨ saw = false)
    (hz : k.currentLen = 0 ∨ k.hasSuffix = true → ∀ j, a ≤ j → j ≤ b → ¬ InTransit (σ j) k) :
    ∃ j, a ≤ j ∧ j ≤ b ∧ r = contents σ α k j := by
  rcases C56_found_value_is_current h hα hl hr (fun e => hz (.inl e)) with e | ⟨_, j, h1, h2, h3⟩
  · refine ⟨a, Nat.le_refl a, hl.le, ?_⟩
    rw [e]
    by_contra hc
    obtain ⟨p, hp, hh⟩ := h.was_present hα (r := contents σ α k a) rfl (fun e => hc e.symm)
    have hheld : Held (σ a) k := h.held (.inl (hh.present.held (h.inv p)).1) hp
    obtain ⟨x, hx⟩ := hl.begins
    have hend := hl.ends
    rw [e] at hend
    have := h.not_absent hheld hx hl.le (fun j h1 h2 hcv => hz (.inr hcv.1) j h1 h2 hcv.2) hend
    rcases hs with hs | hs
    · rw [hs] at this; cases this.2
    · rw [hs] at this; cases this.1
  · exact ⟨j, h1, h2, h3.symm⟩

/-- **C56.** The leaves never say two things about a key, and what they say is what was written last. -/
theorem C56_leaves_hold_last_written {f : Bool} {σ : Nat → St V} (h : Exec f σ) {α : Nat → Option (Act V)} (hα : Steps f σ α)
    {k : Key} {n : Nat} {r : Out V} (hh : Holds (σ n) k r) :
    contents σ α k n = r ∧ ∀ r', Holds (σ n) k r' → r' = r := by
  refine ⟨h.holds hα hh, fun v' hh' => ?_⟩
  have h1 := h.holds hα hh
  have h2 := h.holds hα hh'
  rw [← h1, ← h2]

/-- **C56.** Whenever no leaf is locked, the leaves say exactly what was written: no split has lost, added or altered an
entry. -/
theorem C56_leaves_are_the_map {f : Bool} {σ : Nat → St V} (h : Exec f σ) {α : Nat → Option (Act V)} (hα : Steps f σ α)
    {k : Key} {n : Nat} (hq : ∀ x, (σ n).hold x = .free) (r : Out V) :
    contents σ α k n = r ↔ Holds (σ n) k r ∨ (r = .absent ∧ ∀ r', ¬ Holds (σ n) k r') := by
  constructor
  · intro hc
    by_cases hr : r = .absent
    · refine .inr ⟨hr, fun r' hh => ?_⟩
      have := h.holds hα hh
      exact hh.ne.1 (by rw [← this, hc, hr])
    · left
      obtain ⟨p, hp, hh⟩ := h.was_present hα hc hr
      obtain ⟨r', hh'⟩ := (C31_key_stays h hh.present hp hq).holds
      have := h.holds hα hh'
      rw [hc] at this; rw [this]; exact hh'
  · rintro (hh | ⟨rfl, hn⟩)
    · exact h.holds hα hh
    · by_contra hc
      obtain ⟨p, hp, hh⟩ := h.was_present hα (r := contents σ α k n) rfl hc
      obtain ⟨r', hh'⟩ := (C31_key_stays h hh.present hp hq).holds
      exact hn r' hh'

/-- What the insert that makes this step returns to its caller: the value it replaced (generic.rs:1684-1712), or `None` after
publishing a new slot (generic.rs:1747-1783). -/
def replaced (s : St V) : Act V → Option V
  | .update x t _ =>
    match (s.leaf x).b.cell t with
    | .val old => some old
    | _ => none
  | _ => none

/-- **C56.** An insert returns exactly what the map held for its key just before: the value it replaced, or `None` if and only if
the key had no value.  In particular no insert publishes a key a second time and no value is lost between two inserts, whatever
splits move the key in between and whatever conversions are under way. -/
theorem C56_insert_returns_previous {f : Bool} {σ : Nat → St V} (h : Exec f σ) {α : Nat → Option (Act V)} (hα : Steps f σ α)
    {n : Nat} {a : Act V} {k : Key} {v : V} (hw : written (σ n) k a = some (.value v)) :
    contents σ α k n = answer (replaced (σ n) a) := by
  have I := h.inv n
  cases a <;> unfold written at hw <;> simp only at hw <;> try cases hw
  case update x t v' =>
    unfold replaced; simp only
    cases e : (σ n).hold x with
    | locked lv =>
      cases e' : ((σ n).leaf x).b.cell t with
      | val w =>
        rw [e, e'] at hw
        simp only at hw ⊢
        split at hw
        · rename_i hc
          have hl := I.own x (by rw [e]; simp) (by rw [e]; simp)
          have hfz : ((σ n).hold x).froz = none := by rw [e]; rfl
          have hi : In ((σ n).leaf x).b.perm t := by
            by_contra hh
            rw [(freeSlot_iff _ _).2 hh] at hc; cases hc.1
          obtain ⟨j, hj, ej⟩ := hi
          exact h.holds hα ⟨x, j, hl, not_frozen (I.thawed x hfz), hj, by rw [ej]; exact shown_val e' hc.2⟩
        · cases hw
      | null => rw [e, e'] at hw; cases hw
      | layer q => rw [e, e'] at hw; cases hw
    | _ => rw [e] at hw; cases hw
  case publish x pos off =>
    show contents σ α k n = .absent
    by_contra hcn
    cases e : (σ n).hold x with
    | locked lv =>
      rw [e] at hw
      simp only at hw
      split at hw
      · rename_i hc
        obtain ⟨⟨_, _, hfit⟩, hsl⟩ := hc
        obtain ⟨p, hp, hh⟩ := h.was_present hα (r := contents σ α k n) rfl hcn
        have hheld : Held (σ n) k := h.held (.inl (hh.present.held (h.inv p)).1) hp
        have hl := I.own x (by rw [e]; simp) (by rw [e]; simp)
        unfold fits at hfit
        obtain ⟨-, -, hf2, hf3, hf4, -⟩ := of_decide_eq_true hfit
        revert hsl hf2 hf3 hf4
        generalize (⟨⟨0, 0⟩, 0#32, ((σ n).leaf x).b.perm, pos, off⟩ : Cas.Try).slot = t
        intro hsl hf2 hf3 hf4
        rcases hheld with ⟨φ, hj⟩ | ⟨_, x', lv', t', q', st', e2, hik⟩
        · rcases hj x hl (by rw [← hsl.1]; exact hf3) with ⟨t', ht⟩ | hpa | ⟨y1, u, hy1, _⟩
          · unfold Here at ht
            rw [e] at ht
            obtain ⟨⟨i, hi, ei⟩, hb1⟩ := ht
            have hi : i < size 5 ((σ n).leaf x).b.perm := hi
            have ei : get 5 ((σ n).leaf x).b.perm i = t' := ei
            refine hf2 i hi ⟨by rw [ei, hsl.1]; exact hb1.ikey, ?_⟩
            rw [ei, klx_searchKlx hsl]
            have hk := hb1.klx
            cases φ with
            | false => rw [show ((σ n).leaf x).b.klx t' = _ from hk]
            | true =>
              have h1 : 128 ≤ ((σ n).leaf x).b.klx t' := hk.1
              unfold Tree.searchKlx
              rw [if_pos hk.2]
              unfold cls
              rw [if_pos (by omega), if_pos (by decide)]
          · have h1 := hf4 hpa.1
            have h2 := hpa.2
            rw [hsl.1] at h1
            omega
          · rw [e] at hy1; cases hy1
        · have hl' := I.own x' (by rw [e2]; simp) (by rw [e2]; simp)
          have hst := I.still (x := x') (by rw [e2]; rfl) hl'
          obtain ⟨i, hi, ei⟩ := (h.convOk n x' lv' t' q' st' e2).pub
          have hxx := I.same_range hl hl' hf3 hf4
            (by rw [hsl.1, ← hik, ← ei]; exact hst.2.2.1 i hi) (by rw [hsl.1, ← hik, ← ei]; exact fun h0 => hst.2.2.2 h0 i hi)
          rw [hxx, e2] at e; cases e
      · cases hw
    | _ => rw [e] at hw; cases hw
  case hold x =>
    split at hw
    · split at hw <;> cases hw
    · cases hw

/-! ## Witness -/

theorem releases_le_steps (σ : Nat → St V) (x n : Nat) : releases σ x n ≤ n := by
  induction n with
  | zero => exact Nat.le_refl 0
  | succ n ih => unfold releases; split <;> omega

/-- A list of actions as the steps of its execution. -/
theorem trace_steps (f : Bool) (s : St V) (as : List (Act V)) : Steps f (trace f s as) (fun n => as[n]?) := by
  intro n
  unfold trace
  simp only
  by_cases hn : n < as.length
  · rw [List.getElem?_eq_getElem hn, List.take_succ_eq_append_getElem hn, List.foldl_append]; rfl
  · rw [List.getElem?_eq_none (by omega), List.take_of_length_le (by omega), List.take_of_length_le (by omega)]

/-- Keys 1, 2 and 3 are in leaf 1.  A lookup of key 3 reads the permutation; then key 3 gets a new value and moves to leaf 2
in a split; then the lookup goes on. -/
def raced : List (Act Nat) :=
  fill ++ [.start 0 1 (key 3)] ++ List.replicate 3 (.read 0) ++ [.lock 1, .update 1 2 31, .giveUp 1, .hold 1] ++ split1 ++
    List.replicate 40 (.read 0)

/-- Program counter of a lookup that has ended. -/
def ended : CPc Nat → Bool
  | .done _ _ _ => true
  | _ => false

/-- A lookup that is overtaken by an update and a split meets the hypotheses of the theorems above; it answers with the new
value, from the leaf that the split made. -/
theorem C56_witness :
    let σ := trace false emptyChain raced
    let α := fun n => raced[n]?
    Exec false σ ∧ Steps false σ α ∧ Lookup σ 0 10 49 (key 3) (.value 31) false ∧
      (∀ x, releases σ x 49 - releases σ x 10 < 2 ^ 19) ∧ contents σ α (key 3) 10 = .value 30 ∧
      contents σ α (key 3) 49 = .value 31 ∧ (∀ x, (σ 49).hold x = .free) ∧ Holds (σ 49) (key 3) (.value 31) := by
  refine ⟨trace_exec false emptyChain_start _, trace_steps _ _ _, ⟨by omega, ⟨1, by decide +kernel⟩, ?_, by decide +kernel⟩,
    ?_, by decide +kernel, by decide +kernel, ?_, ?_⟩
  · have : ∀ n, n < 49 → 10 ≤ n → ended ((trace false emptyChain raced n).rd 0) = false := by decide +kernel
    intro n h1 h2 k r w e
    have := this n h2 h1
    rw [e] at this; cases this
  · intro x
    have := releases_le_steps (trace false emptyChain raced) x 49
    have : 49 < 2 ^ 19 := by decide
    omega
  · intro x
    match x with
    | 0 => decide +kernel
    | 1 => decide +kernel
    | 2 => decide +kernel
    | x + 3 => rfl
  · refine ⟨2, 0, by decide +kernel, by decide +kernel, by decide +kernel, by decide +kernel⟩

/-- Both kinds of insert occur in that execution: step 14 replaces 30 by 31, and step 2 publishes key 1. -/
theorem C56_insert_returns_previous_witness :
    let σ := trace false emptyChain raced
    (∃ n, written (σ n) (key 3) (.update 1 2 31) = some (.value 31) ∧ replaced (σ n) (.update 1 2 31) = some 30 ∧ raced[n]? = some (.update 1 2 31)) ∧
      ∃ n a v, raced[n]? = some a ∧ written (σ n) (key 1) a = some (.value v) ∧ replaced (σ n) a = none := by
  refine ⟨⟨14, by decide +kernel, by decide +kernel, by with_unfolding_all rfl⟩, ⟨2, _, 10, rfl, by decide +kernel, by decide +kernel⟩⟩

/-- The nine bytes `0 0 0 0 0 0 0 3 n`. -/
def long (n : UInt8) : Key := Key.mk' [0, 0, 0, 0, 0, 0, 0, 3, n]

/-- Keys 1, 2, 3 and a nine-byte key are in leaf 1.  A lookup of the nine-byte key begins and reads the version; then the
slots of keys 2 and 3 and the nine-byte key move to leaf 2, where a second nine-byte key with the same first eight bytes turns
the value into the sublayer 7; then the lookup goes on, finds what it seeks in leaf 2, and answers with the sublayer. -/
def converted : List (Act Nat) :=
  fill ++ [.lock 1, .write 1 3 3 64 (.val 40) (some [9]), .publish 1 3 0, .giveUp 1, .hold 1] ++
    [.start 0 1 (long 9)] ++ List.replicate 2 (.read 0) ++
    [.lock 1, .markSplit 1, .freeze 1 2 2] ++ List.replicate 10 (.hold 1) ++ [.release 2] ++
    [.lock 2, .convert 2 1 7] ++ List.replicate 4 (.hold 2) ++ [.giveUp 2, .hold 2] ++ List.replicate 30 (.read 0)

/-- Conversions occur in the executions the theorems are about: a lookup that is overtaken by a split and a conversion answers
with the sublayer, which is what the ideal map says by then; key 3, with the same eight bytes, is not affected. -/
theorem C56_conversion_witness :
    let σ := trace false emptyChain converted
    let α := fun n => converted[n]?
    Exec false σ ∧ Steps false σ α ∧ Lookup σ 0 15 66 (long 9) (.descend 7) false ∧
      (∀ x, releases σ x 66 - releases σ x 15 < 2 ^ 19) ∧ contents σ α (long 9) 15 = .value 40 ∧
      contents σ α (long 9) 66 = .descend 7 ∧ contents σ α (long 8) 66 = .descend 7 ∧ contents σ α (key 3) 66 = .value 30 ∧
      Holds (σ 66) (long 9) (.descend 7) ∧ Holds (σ 66) (key 3) (.value 30) := by
  refine ⟨trace_exec false emptyChain_start _, trace_steps _ _ _, ⟨by omega, ⟨1, by decide +kernel⟩, ?_, by decide +kernel⟩,
    ?_, by decide +kernel, by decide +kernel, by decide +kernel, by decide +kernel, ?_, ?_⟩
  · have : ∀ n, n < 66 → 15 ≤ n → ended ((trace false emptyChain converted n).rd 0) = false := by decide +kernel
    intro n h1 h2 k r w e
    have := this n h2 h1
    rw [e] at this; cases this
  · intro x
    have := releases_le_steps (trace false emptyChain converted) x 66
    have : 66 < 2 ^ 19 := by decide
    omega
  · exact ⟨2, 1, by decide +kernel, by decide +kernel, by decide +kernel, by decide +kernel⟩
  · exact ⟨2, 0, by decide +kernel, by decide +kernel, by decide +kernel, by decide +kernel⟩

end Verif.Chain
