import Verif.Proof.ValueRace
/-!
# C75, C76: values shared by threads are used only while they exist, and are released once

`Exec` (Spec/ValueRace.lean): an execution of any number of threads that load, store, replace, move and retire pointers to values, and of the collector,
from the empty tree on.  `Proper`: the guards given to the tree's calls are its own.
-/
namespace Verif.ValueRace
variable {V : Type} {σ : Nat → St V} {β : Nat → Act V}

theorem Owned.owns {s : St V} {p : Nat} (h : Owned s p) : ∃ k, owns s k = some p := by
  rcases h with ⟨x, t, h⟩ | ⟨i, h | h⟩ | ⟨n, w, h⟩ | ⟨k, h⟩
  · exact ⟨.cell x t, h⟩
  · exact ⟨.new i, h⟩
  · exact ⟨.old i, h⟩
  · exact ⟨.bin n, by simp [ValueRace.owns, h]⟩
  · exact ⟨.handle k, h⟩

theorem Owned.of_owns {s : St V} {p : Nat} {k : Owner} (h : ValueRace.owns s k = some p) : Owned s p := by
  cases k with
  | cell x t => exact .inl ⟨x, t, h⟩
  | new i => exact .inr (.inl ⟨i, .inl h⟩)
  | old i => exact .inr (.inl ⟨i, .inr h⟩)
  | bin n =>
    cases e : s.bin n with
    | none => simp [ValueRace.owns, e] at h
    | some b =>
      obtain ⟨q, w⟩ := b
      simp only [ValueRace.owns, e, Option.map_some, Option.some.injEq] at h
      exact .inr (.inr (.inl ⟨n, w, by rw [e, h]⟩))
  | handle k => exact .inr (.inr (.inr ⟨k, h⟩))

/-- **C75.** At no moment does anybody touch the count of a value that has been released, and every pointer that can still be used is to a value that
has not been released: those loaded by lookups under guards that are still active, those in slots, in the hands of inserts, in `Arc`s, and those that
have been retired. -/
theorem C75_no_use_after_release (E : Exec σ β) (P : ∀ n, Proper (σ n) (β n)) (n : Nat) :
    (σ n).bad = false ∧ (∀ i p, p ∈ (σ n).refs i → (σ n).data p ≠ none ∧ (σ n).drops p = 0) ∧
      ∀ p, Owned (σ n) p → (σ n).data p ≠ none ∧ (σ n).drops p = 0 := by
  have I := E.inv P n
  refine ⟨I.good, fun i p hp => ?_, fun p hp => ?_⟩
  · obtain ⟨_, k, hk⟩ := I.safe i p hp
    have := I.alive hk.owns
    exact ⟨this.2.1, this.2.2.1⟩
  · obtain ⟨k, hk⟩ := hp.owns
    have := I.alive hk
    exact ⟨this.2.1, this.2.2.1⟩

/-- **C75.** What a lookup has loaded stays valid, and keeps showing the same value, until its guard is dropped, whatever the other threads do: they
may replace the value, move it to another leaf or a new layer, retire it, and drop every `Arc` of it. -/
theorem C75_reference_stays (E : Exec σ β) (P : ∀ n, Proper (σ n) (β n)) {n i p : Nat} {v : V} (hp : p ∈ (σ n).refs i) (hv : (σ n).data p = some v) :
    ∀ m, n ≤ m → (∀ k, n ≤ k → k < m → β k ≠ .unpin i) → p ∈ (σ m).refs i ∧ (σ m).data p = some v := by
  intro m hm
  induction hm with
  | refl => exact fun _ => ⟨hp, hv⟩
  | step hm ih =>
    rename_i m
    intro hk
    obtain ⟨h1, h2⟩ := ih fun k g1 g2 => hk k g1 (Nat.lt_succ_of_lt g2)
    have h3 : p ∈ (σ (m + 1)).refs i := by rw [E.steps m]; exact refs_step h1 _ (hk m hm (Nat.lt_succ_self m))
    refine ⟨h3, ?_⟩
    have h4 := ((C75_no_use_after_release E P (m + 1)).2.1 i p h3).1
    have h5 := data_step (E.inv P m) (β m) h2
    rw [← E.steps m] at h5
    exact h5.resolve_right h4

/-- **C75.** No value is released twice, and it is there exactly from when it is made until it is released. -/
theorem C75_released_once (E : Exec σ β) (P : ∀ n, Proper (σ n) (β n)) (n p : Nat) :
    (σ n).drops p ≤ 1 ∧ ((σ n).data p ≠ none ↔ (σ n).used p = true ∧ (σ n).drops p = 0) := by
  have I := E.inv P n
  cases e : (σ n).used p with
  | true => rcases I.live p e with g | g <;> simp [g]
  | false => have g := I.rest p e; simp [g]

/-- **C75.** A value has been released as soon as nobody is responsible for it any more, and not before: nothing leaks. -/
theorem C75_released_at_last (E : Exec σ β) (P : ∀ n, Proper (σ n) (β n)) (n p : Nat) (hu : (σ n).used p = true) :
    (Owned (σ n) p ↔ (σ n).drops p = 0) ∧ (¬ Owned (σ n) p ↔ (σ n).drops p = 1) := by
  have I := E.inv P n
  have h1 : Owned (σ n) p → (σ n).drops p = 0 := fun h => ((C75_no_use_after_release E P n).2.2 p h).2
  have h2 : ¬ Owned (σ n) p → (σ n).drops p = 1 := fun h => by
    have := I.tally.zero (p := p) fun k hk => h (Owned.of_owns hk)
    rcases I.live p hu with g | g
    · omega
    · exact g.2.2
  refine ⟨⟨h1, fun g => ?_⟩, ⟨h2, fun g h => ?_⟩⟩
  · exact Classical.byContradiction fun h => by have := h2 h; omega
  · have := h1 h; omega

/-- **C75.** What has been retired waits only for guards that are still active.  Once none is, the collector can release all of it. -/
theorem C75_reclaimable (E : Exec σ β) (n : Nat) (h : (σ n).pin = []) (m p : Nat) (w : List Nat) (hb : (σ n).bin m = some (p, w)) :
    w = [] ∧ (act (σ n) (.free m)).bin m = none := by
  have hw : w = [] := List.eq_nil_iff_forall_not_mem.2 fun i hi => by have := E.wait n m p w hb i hi; rw [h] at this; cases this
  subst hw
  exact ⟨rfl, by simp [act, hb, Internode.upd]⟩

/-- The state before anything has happened; guards with odd numbers are of another tree. -/
def empty : St Nat where
  cell _ _ := none
  lock _ := none
  pin := []
  home i := i % 2 == 0
  refs _ := []
  look _ := none
  new _ := none
  old _ := none
  handle _ := none
  bin _ := none
  strong _ := 0
  data _ := none
  used _ := false
  drops _ := 0
  bad := false

/-- The steps of a list, and nothing after them. -/
def script (l : List (Act Nat)) (n : Nat) : Act Nat := (l[n]?).getD (.leave 0)

/-- The states of an execution. -/
def run (b : Nat → Act Nat) : Nat → St Nat
  | 0 => empty
  | n + 1 => act (run b n) (b n)

theorem run_exec (b : Nat → Act Nat) : Exec (run b) b :=
  ⟨⟨fun _ _ => rfl, fun _ => rfl, fun _ => rfl, fun _ => rfl, fun _ => rfl, fun _ => rfl, fun _ => rfl, fun _ => rfl, fun _ => rfl, fun _ => rfl, fun _ => rfl, rfl⟩,
    fun _ => rfl⟩

theorem home_run (b : Nat → Act Nat) (i : Nat) : ∀ n, (run b n).home i = (i % 2 == 0)
  | 0 => rfl
  | n + 1 => by
    rw [← home_run b i n]
    show (act (run b n) (b n)).home i = _
    cases b n <;> simp only [act] <;> (repeat' split) <;> rfl

/-- Whether the guard of a step is of this tree. -/
def own : Act Nat → Bool
  | .load i _ _ => i % 2 == 0
  | .retire i _ => i % 2 == 0
  | _ => true

theorem proper_run (l : List (Act Nat)) (h : l.all own = true) (n : Nat) : Proper (run (script l) n) (script l n) := by
  have : own (script l n) = true := by
    unfold script
    cases e : l[n]? with
    | none => rfl
    | some a => exact List.all_eq_true.1 h a (List.mem_of_getElem? e)
  revert this
  cases script l n <;> intro h <;> simp only [Proper, home_run] <;> exact h

/-- Guard 2 inserts a value 10, guard 4 looks it up, guard 2 replaces it by 20 and retires it, and every `Arc` of it is dropped. -/
def replaced : List (Act Nat) :=
  [.make 0 0 10, .pin 2, .lock 2 7, .toRaw 2 0, .store 2 7 3, .unlock 2 7, .drop 0, .unpin 2,
    .pin 4, .load 4 7 3,
    .make 1 1 20, .pin 2, .lock 2 7, .look 2 7 3, .answer 2 2, .consume 2 1, .swap 2, .unlock 2 7, .retire 2 0, .drop 2, .unpin 2]

/-- **C75, a concrete case.** After this the collector cannot release the old value, to which guard 4 has a reference, and after guard 4 is dropped it can. -/
theorem C75_witness :
    Exec (run (script (replaced ++ [.free 0, .unpin 4, .free 0]))) (script (replaced ++ [.free 0, .unpin 4, .free 0])) ∧
      (∀ n, Proper (run (script (replaced ++ [.free 0, .unpin 4, .free 0])) n) (script (replaced ++ [.free 0, .unpin 4, .free 0]) n)) ∧
      0 ∈ (run (script (replaced ++ [.free 0, .unpin 4, .free 0])) 22).refs 4 ∧
      (run (script (replaced ++ [.free 0, .unpin 4, .free 0])) 22).cell 7 3 = some 1 ∧
      (run (script (replaced ++ [.free 0, .unpin 4, .free 0])) 22).data 0 = some 10 ∧
      (run (script (replaced ++ [.free 0, .unpin 4, .free 0])) 22).bin 0 = some (0, [4]) ∧
      (run (script (replaced ++ [.free 0, .unpin 4, .free 0])) 24).data 0 = none ∧
      (run (script (replaced ++ [.free 0, .unpin 4, .free 0])) 24).drops 0 = 1 ∧
      (run (script (replaced ++ [.free 0, .unpin 4, .free 0])) 24).data 1 = some 20 :=
  ⟨run_exec _, proper_run _ (by decide), by decide +kernel, by decide +kernel, by decide +kernel, by decide +kernel, by decide +kernel, by decide +kernel, by decide +kernel⟩

/-! ## C76: guards of another tree

`get_ref`, `get_with_guard` and `insert_with_guard` are safe functions and take any guard. -/

/-- **C76 is false for the code.** One thread: it inserts a value, looks it up with `get_ref` under a guard (1) of another tree, and replaces it.  The
value is released although the guard, and with it the reference that was returned, is still there. -/
theorem C76_foreign_guard_dangles : ∃ (σ : Nat → St Nat) (β : Nat → Act Nat) (n : Nat), Exec σ β ∧
    1 ∈ (σ n).pin ∧ 0 ∈ (σ n).refs 1 ∧ (σ n).data 0 = none ∧ (σ n).drops 0 = 1 :=
  ⟨run (script _), script
      [.make 0 0 10, .pin 2, .lock 2 7, .toRaw 2 0, .store 2 7 3, .unlock 2 7, .drop 0, .unpin 2, .pin 1, .load 1 7 3,
        .make 1 1 20, .pin 2, .lock 2 7, .look 2 7 3, .answer 2 2, .consume 2 1, .swap 2, .unlock 2 7, .retire 2 0, .drop 2, .unpin 2, .free 0],
    22, run_exec _, by decide +kernel, by decide +kernel, by decide +kernel, by decide +kernel⟩

/-- **C76 is false for the code.** The same, and the tree is dropped: its own guards borrow it, that of the other tree does not. -/
theorem C76_dropped_tree_dangles : ∃ (σ : Nat → St Nat) (β : Nat → Act Nat) (n : Nat), Exec σ β ∧
    1 ∈ (σ n).pin ∧ 0 ∈ (σ n).refs 1 ∧ (σ n).data 0 = none ∧ (σ n).drops 0 = 1 :=
  ⟨run (script _), script
      [.make 0 0 10, .pin 2, .lock 2 7, .toRaw 2 0, .store 2 7 3, .unlock 2 7, .drop 0, .unpin 2, .pin 1, .load 1 7 3, .clear 7 3],
    11, run_exec _, by decide +kernel, by decide +kernel, by decide +kernel, by decide +kernel⟩

/-- **C76 is false for the code.** The reader makes no mistake: its guard (4) is of this tree.  Another call, `insert_with_guard`, replaces the value and
retires it under a guard of another tree, which waits for nobody here.  The reader's `get` then adds to the count of a value that is no longer there. -/
theorem C76_foreign_retire_dangles : ∃ (σ : Nat → St Nat) (β : Nat → Act Nat) (n : Nat), Exec σ β ∧
    (σ n).home 4 = true ∧ 4 ∈ (σ n).pin ∧ 0 ∈ (σ n).refs 4 ∧ (σ n).data 0 = none ∧ (σ n).drops 0 = 1 ∧ (σ n).bad = false ∧ (σ (n + 1)).bad = true :=
  ⟨run (script _), script
      [.make 0 0 10, .pin 2, .lock 2 7, .toRaw 2 0, .store 2 7 3, .unlock 2 7, .drop 0, .unpin 2, .pin 4, .load 4 7 3,
        .make 1 1 20, .pin 1, .lock 1 7, .look 1 7 3, .answer 1 2, .consume 1 1, .swap 1, .unlock 1 7, .retire 1 0, .drop 2, .unpin 1, .free 0, .clone 4 0 9],
    22, run_exec _, by decide +kernel, by decide +kernel, by decide +kernel, by decide +kernel, by decide +kernel, by decide +kernel, by decide +kernel⟩

/-- **C76, what holds.** Until a guard of another tree is passed, nothing that is still in use has been released.  (Missing: guards of other trees.) -/
theorem C76_own_guards_partial (E : Exec σ β) (n : Nat) (P : ∀ m, m < n → Proper (σ m) (β m)) :
    (σ n).bad = false ∧ (∀ i p, p ∈ (σ n).refs i → (σ n).data p ≠ none ∧ (σ n).drops p = 0) ∧
      ∀ p, Owned (σ n) p → (σ n).data p ≠ none ∧ (σ n).drops p = 0 := by
  have I : ∀ m, m ≤ n → Inv (σ m) := by
    intro m
    induction m with
    | zero => exact fun _ => .start E.start
    | succ m ih => intro hm; rw [E.steps m]; exact (ih (by omega)).step _ (P m (by omega))
  have I := I n (Nat.le_refl n)
  refine ⟨I.good, fun i p hp => ?_, fun p hp => ?_⟩
  · obtain ⟨_, k, hk⟩ := I.safe i p hp
    have := I.alive hk.owns
    exact ⟨this.2.1, this.2.2.1⟩
  · obtain ⟨k, hk⟩ := hp.owns
    have := I.alive hk
    exact ⟨this.2.1, this.2.2.1⟩

end Verif.ValueRace
