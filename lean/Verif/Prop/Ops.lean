import Verif.Proof.OpsGet
import Verif.Proof.OpsCount
set_option linter.unusedSimpArgs false
set_option linter.unusedVariables false
set_option linter.style.nameCheck false
/-!
# Whole calls of `get` and `insert` (C59), the counter (C60), and failures (C61)
-/
namespace Verif.Ops
open Verif.Spec (Bytes)
open Verif.Internode (upd upd_same upd_ne)
open Verif.Forest (Few InTransit)
variable {V : Type} {fixed strict : Bool} {τ : Nat → St V} {β : Nat → Option (Act V)} {N : Nat}

/-- **C59.** A call of `insert` that has returned has changed the map exactly once, at a step of its own within the call: there it has
stored its value for its key and nothing for any other key, the answer is what the map held for the key just before, and
no other step that the thread made in the call has stored anything. -/
theorem C59_insert_once (E : Exec fixed strict τ β) {i a b : Nat} {d : Bytes} {v : V} {r : Option V} (h : Call τ β i (.insert d v) a b r)
    (C : Clean strict τ β (b + 1)) :
    ∃ n, a < n ∧ n ≤ b ∧ Runs β i n ∧ (∀ d', stored τ β n d' = if d' = d then some v else none) ∧
      map τ β d n = r ∧ map τ β d (n + 1) = some v ∧ (∀ d', d' ≠ d → map τ β d' (n + 1) = map τ β d' n) ∧
      ∀ n', a < n' → n' ≤ b → n' ≠ n → Runs β i n' → ∀ d', stored τ β n' d' = none := by
  rcases h.busy.insert E C (b + 1) (Nat.lt_succ_of_lt h.busy.lt) (Nat.le_refl _) with ⟨h1, _⟩ | ⟨k, h1, h2, h3, h4, h5, h6⟩
  · rw [h.ends] at h1; cases h1
  · rw [h.ends] at h5
    refine ⟨k, h1, by omega, h3, h4, (Option.some.inj h5).symm, map_stored (by rw [h4, if_pos rfl]), fun d' g => map_still (by rw [h4, if_neg g]),
      fun n' k1 k2 => h6 n' k1 (by omega)⟩

/-- **C59.** Nothing but inserts under way changes the map, each its own key, to its own value. -/
theorem C59_only_inserts_write (E : Exec fixed strict τ β) {n : Nat} (C : Clean strict τ β n) {d : Bytes} (h : map τ β d (n + 1) ≠ map τ β d n) :
    ∃ i a v, Runs β i n ∧ Open τ β i (.insert d v) a n ∧ map τ β d (n + 1) = some v := by
  cases e : stored τ β n d with
  | none => exact absurd (map_still e) h
  | some v =>
    obtain ⟨i, a, h1, h2⟩ := E.writer C e
    exact ⟨i, a, v, h1, h2, map_stored e⟩

/-- **C59.** An insert that has not returned has changed the map at most once: a second store for any key by the same call is
impossible, also if the call fails. -/
theorem C59_insert_at_most_once (E : Exec fixed strict τ β) {i a b : Nat} {d : Bytes} {v : V} (h : Open τ β i (.insert d v) a b)
    (C : Clean strict τ β (b + 1)) {n n' : Nat} (hn : a < n ∧ n ≤ b ∧ Runs β i n) (hn' : a < n' ∧ n' ≤ b ∧ Runs β i n') {d1 d2 : Bytes}
    (h1 : stored τ β n d1 ≠ none) (h2 : stored τ β n' d2 ≠ none) : n = n' ∧ d1 = d ∧ d2 = d := by
  rcases h.insert E C (b + 1) (Nat.lt_succ_of_lt h.lt) (Nat.le_refl _) with ⟨_, g⟩ | ⟨k, _, _, _, g4, _, g6⟩
  · exact absurd (g n hn.1 (by omega) hn.2.2 d1) h1
  · have e : ∀ m d0, a < m ∧ m ≤ b ∧ Runs β i m → stored τ β m d0 ≠ none → m = k ∧ d0 = d := by
      intro m d0 hm hs
      have hk : m = k := by
        by_cases e : m = k
        · exact e
        · exact absurd (g6 m hm.1 (by omega) e hm.2.2 d0) hs
      subst hk
      refine ⟨rfl, ?_⟩
      by_cases e : d0 = d
      · exact e
      · exact absurd (by rw [g4, if_neg e]) hs
    have e1 := e n d1 hn h1
    have e2 := e n' d2 hn' h2
    exact ⟨e1.1.trans e2.1.symm, e1.2, e2.2⟩

/-- **C59.** A call of `get` that returns a value returns one that its key had at some moment of the call. -/
theorem C59_get_found_is_current (E : Exec fixed strict τ β) {i a b : Nat} {d : Bytes} {v : V} (h : Call τ β i (.get d) a b (some v))
    (C : Clean strict τ β (b + 1)) (hr : Few (Whole.leaves (tree τ)) a b) (hz : d = [] → ∀ j, a ≤ j → j ≤ b → ¬ InTransit (τ j).w.f d) :
    ∃ n, a < n ∧ n ≤ b ∧ map τ β d n = some v := by
  obtain ⟨a', b', saw, h1, h2, h3, _⟩ := h.lookup E C
  have hle := h3.le
  obtain ⟨j, g1, g2, g3⟩ := Whole.C58_get_found_is_current E.whole (Whole.Clean.sub C (by omega)) h3 (hr.sub (by omega) (by omega) h2)
    (fun e j k1 k2 => hz e j (by omega) (by omega))
  exact ⟨j, by omega, by omega, g3⟩

/-- **C59.** A call of `get` answers what the map held for its key at some moment of the call, unless the answer was given after a look
at a leaf that was being split (C31, not with the repair) or bytes of the key are being turned into a layer (C29). -/
theorem C59_get_linearizable (E : Exec fixed strict τ β) {i a b : Nat} {d : Bytes} {r : Option V} (h : Call τ β i (.get d) a b r)
    (C : Clean strict τ β (b + 1)) (hr : Few (Whole.leaves (tree τ)) a b) (hs : fixed = true ∨ Unmarked τ i a b)
    (hz : ∀ j, a ≤ j → j ≤ b → ¬ InTransit (τ j).w.f d) : ∃ n, a < n ∧ n ≤ b ∧ map τ β d n = r := by
  obtain ⟨a', b', saw, h1, h2, h3, h4⟩ := h.lookup E C
  have hle := h3.le
  have hs' : fixed = true ∨ saw = false := by
    rcases hs with g | g
    · exact .inl g
    · right
      cases saw with
      | false => rfl
      | true =>
        obtain ⟨n', L, m, k, o, k1, k2, k3, k4⟩ := h4 rfl
        exact absurd k4 (g n' L m k o k1 k2 k3)
  obtain ⟨j, g1, g2, g3⟩ := Whole.C58_get_linearizable E.whole (Whole.Clean.sub C (by omega)) h3 (hr.sub (by omega) (by omega) h2) hs'
    (fun j k1 k2 => hz j (by omega) (by omega))
  exact ⟨j, by omega, by omega, g3.symm⟩

theorem map_const {d : Bytes} {x y : Nat} (hxy : x ≤ y) (h : ∀ n, x ≤ n → n < y → map τ β d (n + 1) = map τ β d n) : map τ β d y = map τ β d x := by
  obtain ⟨j, rfl⟩ := Nat.exists_eq_add_of_le hxy
  clear hxy
  induction j with
  | zero => rfl
  | succ j ih =>
    rw [show x + (j + 1) = x + j + 1 from rfl, h (x + j) (by omega) (by omega)]
    exact ih fun n h1 h2 => h n h1 (by omega)

/-- **C59.** What a thread has inserted another one reads back: a `get` that is called after an `insert` of the key has returned, while no
other insert of the key is under way between the call of the insert and the answer of the `get`, answers the value inserted. -/
theorem C59_read_after_insert (E : Exec fixed strict τ β) {i j a b a' b' : Nat} {d : Bytes} {v : V} {r r' : Option V}
    (hi : Call τ β i (.insert d v) a b r) (hg : Call τ β j (.get d) a' b' r') (hb : b < a')
    (honly : ∀ i' v' c n, a < n → n ≤ b' → Open τ β i' (.insert d v') c n → i' = i ∧ c = a)
    (C : Clean strict τ β (b' + 1)) (hr : Few (Whole.leaves (tree τ)) a' b') (hs : fixed = true ∨ Unmarked τ j a' b')
    (hz : ∀ j, a' ≤ j → j ≤ b' → ¬ InTransit (τ j).w.f d) : r' = some v := by
  have hlt := hg.busy.lt
  obtain ⟨n, h1, h2, h3, h4, h5, h6, _, h7⟩ := C59_insert_once E hi (Whole.Clean.sub C (by omega))
  obtain ⟨k, g1, g2, g3⟩ := C59_get_linearizable E hg C hr hs hz
  rw [← g3, ← h6]
  refine map_const (by omega) fun m m1 m2 => ?_
  refine Classical.byContradiction fun hne => ?_
  obtain ⟨i', c, v', k1, k2, _⟩ := C59_only_inserts_write E (Whole.Clean.sub C (by omega)) hne
  obtain ⟨e1, e2⟩ := honly i' v' c m (by omega) (by omega) k2
  subst e1
  subst e2
  by_cases hmb : m ≤ b
  · refine hne (map_still (h7 m (by omega) hmb (by omega) k1 d))
  · have := k2.busy (b + 1) (by have := hi.busy.lt; omega) (by omega)
    rw [hi.ends] at this; cases this

/-! ## The counter -/

/-- **C60.** Whenever no call is under way, `len` is the number of keys in the map; calls that have failed do not matter. -/
theorem C60_len_exact_partial (E : Exec fixed strict τ β) {n : Nat} (C : Clean strict τ β n) (h : ∀ i, ((τ n).ph i).over = true ∨ (τ n).ph i = .err) :
    ∃ ks, Keys τ β n ks ∧ (τ n).count = ks.length := by
  obtain ⟨ks, ts, T⟩ := E.tally C n (Nat.le_refl n)
  refine ⟨ks, ⟨T.keys, T.mem⟩, ?_⟩
  have : ts = [] := by
    cases ts with
    | nil => rfl
    | cons i ts =>
      have g := (T.owe i).1 List.mem_cons_self
      rcases h i with e | e
      · cases e' : (τ n).ph i <;> rw [e'] at e g <;> first | (cases g; done) | (cases e; done)
      · rw [e] at g; cases g
  have g := T.sum
  rw [this] at g
  exact g.symm

/-- **C60.** At any time `len` is not more than the number of keys, and the keys it lacks are at most one for every insert under way. -/
theorem C60_len_bounds_partial (E : Exec fixed strict τ β) {n : Nat} (C : Clean strict τ β n) :
    ∃ ks, ∃ ts : List Nat, Keys τ β n ks ∧ ts.Nodup ∧ (∀ i ∈ ts, ∃ d v a, Open τ β i (.insert d v) a n ∧ map τ β d n ≠ none) ∧
      ks.length = (τ n).count + ts.length := by
  obtain ⟨ks, ts, T⟩ := E.tally C n (Nat.le_refl n)
  refine ⟨ks, ts, ⟨T.keys, T.mem⟩, T.threads, fun i hi => ?_, T.sum⟩
  have g := (T.owe i).1 hi
  have hb : ((τ n).ph i).over = false := by
    cases e : (τ n).ph i <;> rw [e] at g <;> first | rfl | cases g
  obtain ⟨a, ha⟩ := E.opened n i hb
  have P := E.phases C n (Nat.le_refl n) i
  cases ho : (τ n).op i with
  | get d =>
    rw [ho] at P
    cases e : (τ n).ph i <;> rw [e] at g P <;> first | (cases g; done) | exact P.elim
  | insert d v =>
    rw [ho] at ha
    refine ⟨d, v, a, ha, ?_⟩
    have hlt := ha.lt
    have hl : ((τ n).ph i).lin ≠ none := fun e => by rw [(lin_owe e).1] at g; cases g
    obtain ⟨m, rfl⟩ : ∃ m, n = m + 1 := ⟨n - 1, by omega⟩
    have ham : a ≠ m := by
      rintro rfl
      rw [ha.starts E] at g; cases g
    have ha' : Open τ β i (.insert d v) a m := ⟨ha.call, ha.free, by omega, fun k k1 k2 => ha.busy k k1 (by omega)⟩
    rcases ha'.insert E C (m + 1) (by omega) (Nat.le_refl _) with ⟨h1, _⟩ | ⟨k, h1, h2, h3, h4, h5, _⟩
    · exact absurd h1 hl
    · have h6 : map τ β d (k + 1) = some v := map_stored (by rw [h4, if_pos rfl])
      have mono : ∀ j, map τ β d (k + 1 + j) ≠ none := by
        intro j
        induction j with
        | zero => rw [Nat.add_zero, h6]; simp
        | succ j ih =>
          cases e : stored τ β (k + 1 + j) d with
          | none => rw [show k + 1 + (j + 1) = k + 1 + j + 1 from rfl, map_still e]; exact ih
          | some w => rw [show k + 1 + (j + 1) = k + 1 + j + 1 from rfl, map_stored e]; simp
      have := mono (m + 1 - (k + 1))
      rwa [show k + 1 + (m + 1 - (k + 1)) = m + 1 by omega] at this

/-! ## Failures -/

/-- **C61.** An insert never fails: it finds a value in every slot whose length says so and a layer in every other one, and it finds a place
to split every leaf it has to split. -/
theorem C61_insert_never_fails (E : Exec fixed strict τ β) {i n : Nat} {d : Bytes} {v : V} (C : Clean strict τ β n) (ho : (τ n).op i = .insert d v) :
    (τ n).ph i ≠ .err := by
  intro e
  have P := E.phases C n (Nat.le_refl n) i
  rw [ho, e] at P
  exact P

/-- **C61.** A `get` never takes a layer for a value or the other way round; the empty key is excepted while a value under eight zero
bytes is being turned into a layer (C45). -/
theorem C61_get_never_fails (E : Exec fixed strict τ β) {i a b : Nat} {d : Bytes} (h : Open τ β i (.get d) a b) (C : Clean strict τ β (b + 1))
    (hr : Few (Whole.leaves (tree τ)) a b) (hz : d = [] → ∀ j, a ≤ j → j ≤ b → ¬ InTransit (τ j).w.f d) : (τ (b + 1)).ph i ≠ .err :=
  h.sound E C hr hz

/-! ## Executions that meet the hypotheses -/

/-- The states of the execution that takes these actions from a state. -/
def trace (fixed strict : Bool) (s : St V) (as : List (Act V)) (n : Nat) : St V := (as.take n).foldl (act fixed strict) s

theorem trace_steps (s : St V) (as : List (Act V)) (n : Nat) : trace fixed strict s as (n + 1) = match as[n]? with
    | none => trace fixed strict s as n
    | some a => act fixed strict (trace fixed strict s as n) a := by
  unfold trace
  by_cases hn : n < as.length
  · rw [List.getElem?_eq_getElem hn, List.take_succ_eq_append_getElem hn, List.foldl_append]; rfl
  · rw [List.getElem?_eq_none (by omega), List.take_of_length_le (by omega), List.take_of_length_le (by omega)]

/-- The empty tree, before any call. -/
def empty : St Nat := ⟨Whole.emptyTree, fun _ => .get [], fun _ => .idle, 0⟩

theorem trace_exec (as : List (Act Nat)) : Exec fixed strict (trace fixed strict empty as) (fun n => as[n]?) :=
  ⟨⟨⟨Forest.emptyTree_start, fun _ => rfl⟩, fun _ => rfl, rfl⟩, trace_steps empty as⟩

/-- A key of eight bytes, and one of nine. -/
def key8 (n : UInt8) : Bytes := [1, 1, 1, 1, 1, 1, 1, n]
def key9 (n k : UInt8) : Bytes := key8 n ++ [k]

/-- `n` steps of thread 0 and thread 1 in turn; a new layer gets the number 5. -/
def turns : Nat → List (Act Nat)
  | 0 => []
  | n + 1 => .run 0 2 [5] :: .run 1 2 [5] :: turns n

/-- Thread 0 inserts a key of nine bytes and one of eight.  Then it inserts a key that shares its first eight bytes with the first
one, for which it makes a new layer, while thread 1 looks up the second key.  Then thread 0 changes the value of the third key
while thread 1 looks it up. -/
def calls : List (Act Nat) :=
  .call 0 (.insert (key9 1 1) 10) :: List.replicate 16 (.run 0 2 [5]) ++ .call 0 (.insert (key8 2) 5) :: List.replicate 16 (.run 0 2 [5]) ++
  .call 0 (.insert (key9 1 2) 20) :: .call 1 (.get (key8 2)) :: turns 15 ++
  .call 1 (.get (key9 1 2)) :: .call 0 (.insert (key9 1 2) 21) :: turns 33

/-- The execution of `calls`. -/
abbrev run : Nat → St Nat := trace false false empty calls
abbrev runs : Nat → Option (Act Nat) := fun n => calls[n]?

set_option maxRecDepth 100000 in
theorem run_clean : Clean false run runs 134 :=
  Whole.clean_of (fixed := false) (trace_exec calls).whole (by decide +kernel)

/-- Bytes that fit in one layer are never turned into one. -/
theorem no_transit_short {s : Forest.St V} {d : Bytes} (hd : d ≠ []) (hl : d.length ≤ 8) : ¬ InTransit s d := by
  rintro ⟨L, _, _, h | h, _⟩
  · omega
  · exact hd h

/-- Whether thread `i` has looked at a marked next pointer. -/
def sawMark (s : St V) (i : Nat) : Bool :=
  match s.ph i with
  | .read L _ => match (s.w.f.layer L).rd i with
    | .done _ _ true => true
    | _ => false
  | _ => false

theorem unmarked_of {i a b : Nat} (h : ∀ n, n ≤ b → a < n → sawMark (τ n) i = false) : Unmarked τ i a b := by
  intro n L m k r h1 h2 h3 h4
  have := h n h2 h1
  simp only [sawMark, h3, h4] at this
  cases this

theorem open_of {i a b : Nat} {o : Op V} (h1 : β a = some (.call i o)) (h2 : ((τ a).ph i).over = true) (h3 : a < b)
    (h4 : ∀ n, n ≤ b → a < n → ((τ n).ph i).over = false) : Open τ β i o a b := ⟨h1, h2, h3, fun n k1 k2 => h4 n k2 k1⟩

set_option maxRecDepth 100000 in
/-- An insert that makes a layer, and one that replaces a value in it, meet the hypotheses of `C59_insert_once` and
`C59_insert_at_most_once`; the first one stores at step 56, and the map changes there (`C59_only_inserts_write`). -/
theorem C59_insert_witness :
    Exec false false run runs ∧ Clean false run runs 134 ∧ Call run runs 0 (.insert (key9 1 2) 20) 34 64 none ∧
      Call run runs 0 (.insert (key9 1 2) 21) 67 104 (some 20) ∧ ∃ n, 34 < n ∧ n ≤ 64 ∧ map run runs (key9 1 2) (n + 1) ≠ map run runs (key9 1 2) n := by
  refine ⟨trace_exec _, run_clean, ⟨open_of rfl ?_ (by omega) ?_, ?_⟩, ⟨open_of rfl ?_ (by omega) ?_, ?_⟩, ?_⟩
  case refine_7 =>
    have hc : Call run runs 0 (.insert (key9 1 2) 20) 34 64 none := ⟨open_of rfl (by decide +kernel) (by omega) (by decide +kernel), by with_unfolding_all rfl⟩
    obtain ⟨n, h1, h2, _, _, h5, h6, _⟩ := C59_insert_once (trace_exec calls) hc (Whole.Clean.sub run_clean (by omega))
    exact ⟨n, h1, h2, by rw [h5, h6]; simp⟩
  all_goals first | decide +kernel | with_unfolding_all rfl

set_option maxRecDepth 100000 in
/-- A lookup in the new layer, during which the value is replaced, meets the hypotheses of `C59_get_found_is_current`. -/
theorem C59_get_witness : Call run runs 1 (.get (key9 1 2)) 66 133 (some 21) ∧ Few (Whole.leaves (tree run)) 66 133 ∧ key9 1 2 ≠ [] := by
  refine ⟨⟨open_of rfl ?_ (by omega) ?_, ?_⟩, Forest.few_of (by decide), by decide⟩
  all_goals first | decide +kernel | with_unfolding_all rfl

set_option maxRecDepth 100000 in
/-- The lookup of the second key, while the leaf is locked and a layer is made in it, meets the hypotheses of
`C59_get_linearizable`, and with the insert of that key those of `C59_read_after_insert`. -/
theorem C59_read_witness :
    Call run runs 0 (.insert (key8 2) 5) 17 33 none ∧ Call run runs 1 (.get (key8 2)) 35 61 (some 5) ∧
      (∀ i v c n, 17 < n → n ≤ 61 → Open run runs i (.insert (key8 2) v) c n → i = 0 ∧ c = 17) ∧ Few (Whole.leaves (tree run)) 35 61 ∧
      Unmarked run 1 35 61 ∧ ∀ j, 35 ≤ j → j ≤ 61 → ¬ InTransit (run j).w.f (key8 2) := by
  refine ⟨⟨open_of rfl ?_ (by omega) ?_, ?_⟩, ⟨open_of rfl ?_ (by omega) ?_, ?_⟩, ?_, Forest.few_of (by decide), unmarked_of ?_,
    fun _ _ _ => no_transit_short (by decide) (by decide)⟩
  case refine_7 =>
    intro i v c n h1 h2 ho
    have hc : c < 61 := by have := ho.lt; omega
    have h := ho.call
    have all : ∀ c, c < 61 → (match (calls[c]? : Option (Act Nat)) with
        | some (.call i (.insert d _)) => (d == key8 2) && !((i == 0) && (c == 17))
        | _ => false) = false := by decide +kernel
    have := all c hc
    rw [show (calls[c]? : Option (Act Nat)) = _ from h] at this
    simp at this
    exact this
  all_goals first | decide +kernel | with_unfolding_all rfl

set_option maxRecDepth 100000 in
/-- At the end no call is under way, and `len` is 3; earlier it is 2 while the third key is in the map already. -/
theorem C60_witness :
    (∀ i, ((run 134).ph i).over = true) ∧ (run 134).count = 3 ∧ (run 62).count = 2 ∧ map run runs (key9 1 1) 62 = some 10 ∧
      map run runs (key8 2) 62 = some 5 ∧ map run runs (key9 1 2) 62 = some 20 := by
  refine ⟨?_, ?_, ?_, ?_, ?_, ?_⟩
  case refine_1 =>
    intro i
    match i with
    | 0 => decide +kernel
    | 1 => decide +kernel
    | i + 2 => with_unfolding_all rfl
  all_goals decide +kernel

set_option maxRecDepth 100000 in
/-- An insert that is turning a value into a layer, and a lookup under way at the same time, meet the hypotheses of
`C61_insert_never_fails` and `C61_get_never_fails`. -/
theorem C61_witness :
    Clean false run runs 55 ∧ (run 55).op 0 = .insert (key9 1 2) 20 ∧ ((run 55).ph 0).over = false ∧
      Open run runs 1 (.get (key8 2)) 35 54 ∧ Few (Whole.leaves (tree run)) 35 54 := by
  refine ⟨Whole.Clean.sub run_clean (by omega), ?_, ?_, open_of rfl ?_ (by omega) ?_, Forest.few_of (by decide)⟩
  all_goals first | decide +kernel | with_unfolding_all rfl

end Verif.Ops
