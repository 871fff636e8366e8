import Verif.Prop.OpsBound
set_option linter.unusedSimpArgs false
set_option linter.unusedVariables false
/-!
# C63: is an insert that has returned visible?

Not always.  Here are executions of calls, from the empty tree on, in which a `get` that is called after the insert of its key
has returned answers `None` or an old value.  Each of them breaks just one of the conditions of `C59_read_after_insert`.
-/
namespace Verif.Ops
open Verif.Internode (upd upd_same upd_ne)
open Verif.Spec (Bytes)
open Verif.Forest (InTransit)
open Verif.Forest (Few)
variable {V : Type} {fixed strict : Bool}

/-- Thread `i` inserts `v` for `d`, from step `a` to `b`.  After that, from step `a'` to `b'`, thread `j` looks `d` up and gets `r'`.  In the
meantime there is no other insert of `d`. -/
structure After1 (τ : Nat → St V) (β : Nat → Option (Act V)) (i j a b a' b' : Nat) (d : Bytes) (v : V) (r r' : Option V) : Prop where
  put : Call τ β i (.insert d v) a b r
  get : Call τ β j (.get d) a' b' r'
  lt : b < a'
  only : ∀ i' v' c n, a < n → n ≤ b' → Open τ β i' (.insert d v') c n → i' = i ∧ c = a

/-- A `get` that is called after the insert of its key has returned answers the value inserted. -/
def Visible (V : Type) (fixed strict : Bool) : Prop :=
  ∀ (τ : Nat → St V) β, Exec fixed strict τ β → ∀ i j a b a' b' d v r r', After1 τ β i j a b a' b' d v r r' → r' = some v

/-- **C63, partial.** An insert that has returned is visible, under the conditions `Clean`, `Few`, `Unmarked` and that the value of the key is
not on its way into a new layer. -/
theorem C63_visible_partial {τ : Nat → St V} {β : Nat → Option (Act V)} (E : Exec fixed strict τ β) {i j a b a' b' : Nat} {d : Bytes} {v : V}
    {r r' : Option V} (h : After1 τ β i j a b a' b' d v r r') (C : Clean strict τ β (b' + 1)) (hr : Few (Whole.leaves (tree τ)) a' b')
    (hs : fixed = true ∨ Unmarked τ j a' b') (hz : ∀ j, a' ≤ j → j ≤ b' → ¬ InTransit (τ j).w.f d) : r' = some v :=
  C59_read_after_insert E h.put h.get h.lt h.only C hr hs hz

/-- A lookup while a layer is being made in the leaf meets the hypotheses of `C63_visible_partial`. -/
theorem C63_witness :
    Exec false false run runs ∧ After1 run runs 0 1 17 33 35 61 (key8 2) 5 none (some 5) ∧ Clean false run runs 62 ∧
      Few (Whole.leaves (tree run)) 35 61 ∧ Unmarked run 1 35 61 ∧ ∀ j, 35 ≤ j → j ≤ 61 → ¬ InTransit (run j).w.f (key8 2) :=
  have ⟨h1, h2, h3, h4, h5, h6⟩ := C59_read_witness
  ⟨trace_exec _, ⟨h1, h2, by omega, h3⟩, Whole.Clean.sub run_clean (by omega), h4, h5, h6⟩

/-! ## Going through an execution once -/

/-- `p` holds of all states. -/
def walk (f : St V → Act V → St V) (p : Nat → St V → Bool) : Nat → St V → List (Act V) → Bool
  | n, s, [] => p n s
  | n, s, a :: as => p n s && walk f p (n + 1) (f s a) as

theorem walk_spec {f : St V → Act V → St V} {p : Nat → St V → Bool} {as : List (Act V)} {s : St V} {k : Nat} (h : walk f p k s as = true) {n : Nat}
    (hn : n ≤ as.length) : p (k + n) ((as.take n).foldl f s) = true := by
  induction as generalizing s k n with
  | nil =>
    have : n = 0 := by simpa using hn
    subst this
    exact h
  | cons a as ih =>
    simp only [walk, Bool.and_eq_true] at h
    cases n with
    | zero => exact h.1
    | succ n =>
      have := ih h.2 (n := n) (by simpa using hn)
      rw [show k + 1 + n = k + (n + 1) by omega] at this
      exact this

/-- In state `n` thread `i` is where it has to be if its call is from `a` to `b` and answers `r`. -/
def during (i a b : Nat) (r : Option Nat) (n : Nat) (s : St Nat) : Bool :=
  (n ≤ a || b < n || !(s.ph i).over) && (n != a || (s.ph i).over) &&
    (n != b + 1 || match s.ph i with | .ret r' => r' == r | _ => false)

theorem during_call {τ : Nat → St Nat} {as : List (Act Nat)} {i a b : Nat} {o : Op Nat} {r : Option Nat}
    (h : ∀ n, n ≤ as.length → during i a b r n (τ n) = true) (hc : as[a]? = some (.call i o)) (hab : a < b)
    (hb : b < as.length) : Call τ (fun n => as[n]?) i o a b r := by
  have h' : ∀ n, n ≤ as.length → _ := fun n hn => by
    have := h n hn
    simp only [during, Bool.and_eq_true, Bool.or_eq_true, decide_eq_true_eq, Bool.not_eq_true', bne_iff_ne, ne_eq] at this
    exact this
  refine ⟨⟨hc, ?_, hab, fun n h1 h2 => ?_⟩, ?_⟩
  · have := (h' a (by omega)).1.2
    simpa using this
  · have := (h' n (by omega)).1.1
    rcases this with (g | g) | g
    · omega
    · omega
    · exact g
  · have := (h' (b + 1) (by omega)).2
    rcases this with g | g
    · exact absurd rfl g
    · split at g
      · rename_i r' e
        rw [e, eq_of_beq g]
      · cases g

/-- No other call of `insert` with the key `d` is from `a` to `b`: earlier ones are over at `a`. -/
def alone (as : List (Act Nat)) (d : Bytes) (i a b : Nat) : Bool :=
  as.zipIdx.all fun x => match x.1 with
    | .call i' (.insert d' _) => d' != d || b ≤ x.2 || (x.2 == a && i' == i) || (x.2 < a && i' < 2)
    | _ => true

theorem alone_spec {τ : Nat → St Nat} {as : List (Act Nat)} {d : Bytes} {i a b : Nat} (h : alone as d i a b = true)
    (h0 : ((τ a).ph 0).over = true) (h1 : ((τ a).ph 1).over = true) :
    ∀ i' v' c n, a < n → n ≤ b → Open τ (fun n => as[n]?) i' (.insert d v') c n → i' = i ∧ c = a := by
  intro i' v' c n g1 g2 ho
  have hc := ho.call
  have hlt := ho.lt
  have hc : as[c]? = some (.call i' (.insert d v')) := hc
  have := List.all_eq_true.1 h (.call i' (.insert d v'), c) (by
    rw [List.mem_zipIdx_iff_getElem?]; exact hc)
  simp only [bne_self_eq_false, Bool.false_or, Bool.or_eq_true, decide_eq_true_eq, Bool.and_eq_true, beq_iff_eq] at this
  rcases this with (g | g) | g
  · omega
  · exact ⟨g.2, g.1⟩
  · have hb := ho.busy a g.1 (by omega)
    have : i' = 0 ∨ i' = 1 := by omega
    rcases this with rfl | rfl
    · rw [h0] at hb; cases hb
    · rw [h1] at hb; cases hb

/-- Both threads are between calls in state `a`. -/
def restAt (a n : Nat) (s : St Nat) : Bool := n != a || ((s.ph 0).over && (s.ph 1).over)

theorem restAt_spec {τ : Nat → St Nat} {as : List (Act Nat)} {a : Nat} (h : ∀ n, n ≤ as.length → restAt a n (τ n) = true)
    (ha : a ≤ as.length) : ((τ a).ph 0).over = true ∧ ((τ a).ph 1).over = true := by
  have := h a ha
  simpa [restAt] using this

/-- An execution of an insert and a later `get`. -/
theorem after_of {f : St Nat → Act Nat → St Nat} {as : List (Act Nat)} {i j a b a' b' : Nat} {d : Bytes} {v : Nat} {r r' : Option Nat}
    (h : walk f (fun n s => during i a b r n s && during j a' b' r' n s && restAt a n s) 0 empty as = true)
    (h1 : as[a]? = some (.call i (.insert d v))) (h2 : as[a']? = some (.call j (.get d))) (hab : a < b) (hb : b < a') (hab' : a' < b')
    (hb' : b' < as.length) (ho : alone as d i a b' = true) :
    After1 (fun n => (as.take n).foldl f empty) (fun n => as[n]?) i j a b a' b' d v r r' := by
  have W : ∀ n, n ≤ as.length → _ := fun n hn => by
    have := walk_spec h hn
    simp only [Nat.zero_add, Bool.and_eq_true] at this
    exact this
  obtain ⟨r0, r1⟩ := restAt_spec (τ := fun n => (as.take n).foldl f empty) (fun n hn => (W n hn).2) (show a ≤ as.length by omega)
  exact ⟨during_call (fun n hn => (W n hn).1.1) h1 hab (by omega), during_call (fun n hn => (W n hn).1.2) h2 hab' hb', hb, alone_spec ho r0 r1⟩

/-- Thread `i` sees no marked next pointer. -/
theorem unmarked_walk {as : List (Act Nat)} {i a b : Nat} (h : walk (act fixed strict) (fun _ s => !sawMark s i) 0 empty as = true) (hb : b ≤ as.length) :
    Unmarked (trace fixed strict empty as) i a b :=
  unmarked_of fun n h1 _ => by
    have := walk_spec h (n := n) (by omega)
    simpa [trace] using this

/-! ## Executions in which an insert is not visible -/

/-- `k` steps of thread `i`. -/
def go (i k : Nat) : List (Act Nat) := List.replicate k (.run i 3 [5])

/-- Thread 0 has inserted a key of nine bytes.  Thread 1 looks it up and has taken the version of the leaf; thread 0 begins to turn the
value into a layer because of another key; thread 1 sees a slot without a value and that no version has changed. -/
def duringLayer : List (Act Nat) :=
  .call 0 (.insert (key9 1 1) 10) :: go 0 16 ++ .call 0 (.insert (key9 1 2) 20) :: .call 1 (.get (key9 1 1)) :: go 1 5 ++ go 0 8 ++ go 1 6 ++
    go 0 6 ++ go 1 10

set_option maxRecDepth 100000 in
/-- **C63** does not hold while a value is on its way into a new layer (finding 3), though nothing else is unusual. -/
theorem C63_missed_while_layer_is_made :
    let τ := trace false false empty duringLayer
    let β := fun n => duringLayer[n]?
    Exec false false τ β ∧ After1 τ β 0 1 0 16 18 46 (key9 1 1) 10 none none ∧ Clean false τ β 47 ∧ Few (Whole.leaves (tree τ)) 18 46 ∧
      Unmarked τ 1 18 46 := by
  refine ⟨trace_exec _, after_of (f := act false false) (by decide +kernel) rfl rfl (by omega) (by omega) (by omega) (by decide +kernel) (by decide +kernel), ?_,
    Forest.few_of (by decide), unmarked_walk (by decide +kernel) (by decide +kernel)⟩
  exact Whole.Clean.sub (clean_trace (by decide +kernel)) (by decide +kernel)

/-- Thread 0 inserts the keys 2, 4, … into the first leaf. -/
def evens : Nat → List (Act Nat)
  | 0 => []
  | n + 1 => evens n ++ .call 0 (.insert (key8 (UInt8.ofNat (2 * n + 2))) (2 * n + 2)) :: go 0 30

/-- Thread 0 fills the only leaf.  Thread 1 looks up the last key, 47, and has arrived at the leaf.  Thread 0 splits the leaf, so that 47 moves
to the new one, and fills the first leaf again.  Thread 1 does not find 47 there.  Thread 0 begins to split the first leaf again, which marks
its next pointer; thread 1 takes this for the end of the chain. -/
def duringSplit : List (Act Nat) :=
  insertMany 24 ++ .call 1 (.get (key8 47)) :: go 1 4 ++ .call 0 (.insert (key8 100) 100) :: List.replicate 64 (.run 0 2 []) ++ evens 12 ++
    .call 0 (.insert (key8 0) 0) :: go 1 29 ++ go 0 43 ++ go 1 5

/-- Two leaves under one internode, the first one with the keys 1 to 24 is full. -/
def twoLeaves : List (Act Nat) := filled ++ evens 12

/-- Thread 1 looks up 20 and has taken the version of the internode.  Thread 0 splits the first leaf, 20 moves to the new one, and it
stores the key of the new leaf in the internode, but not yet the pointer.  Thread 1 reads the new key and the old pointer and passes the
check, because the internode is only locked: it searches the last leaf. -/
def duringIndex : List (Act Nat) :=
  twoLeaves ++ .call 1 (.get (key8 20)) :: go 1 3 ++ .call 0 (.insert (key8 0) 0) :: go 0 51 ++ go 1 30

/-- The same, but thread 1 inserts a new value for 20, and it is stored in the wrong leaf.  When all calls have returned, thread 0 looks 20
up. -/
def lostInIndex : List (Act Nat) :=
  twoLeaves ++ .call 1 (.insert (key8 20) 99) :: go 1 3 ++ .call 0 (.insert (key8 0) 0) :: go 0 51 ++ go 1 5 ++ go 0 40 ++ go 1 14 ++
    .call 0 (.get (key8 20)) :: go 0 27

theorem short_transit {s : Forest.St V} (n : UInt8) : ¬ InTransit s (key8 n) := no_transit_short (by simp [key8]) (by simp [key8])

set_option maxRecDepth 100000 in
/-- **C63** does not hold when a lookup that has been overtaken by one split meets the next one of the same leaf (finding 4), though
nothing else is unusual. -/
theorem C63_missed_during_second_split :
    let τ := trace false false empty duringSplit
    let β := fun n => duringSplit[n]?
    Exec false false τ β ∧ After1 τ β 0 1 391 407 408 924 (key8 47) 47 none none ∧ Clean false τ β 925 ∧ Few (Whole.leaves (tree τ)) 408 924 ∧
      ∀ j, 408 ≤ j → j ≤ 924 → ¬ InTransit (τ j).w.f (key8 47) := by
  refine ⟨trace_exec _, after_of (f := act false false) (by decide +kernel) rfl rfl (by omega) (by omega) (by omega) (by decide +kernel) (by decide +kernel), ?_,
    Forest.few_of (by decide), fun _ _ _ => short_transit _⟩
  exact Whole.Clean.sub (clean_trace (by decide +kernel)) (by decide +kernel)

set_option maxRecDepth 100000 in
/-- **C63** does not hold when a descent reads an internode that is being changed (finding 9), though nothing else is unusual. -/
theorem C63_missed_during_index_update :
    let τ := trace false false empty duringIndex
    let β := fun n => duringIndex[n]?
    Exec false false τ β ∧ After1 τ β 0 1 752 775 845 927 (key8 20) 20 none none ∧ Few (Whole.leaves (tree τ)) 845 927 ∧ Unmarked τ 1 845 927 ∧
      ∀ j, 845 ≤ j → j ≤ 927 → ¬ InTransit (τ j).w.f (key8 20) := by
  refine ⟨trace_exec _, after_of (f := act false false) (by decide +kernel) rfl rfl (by omega) (by omega) (by omega) (by decide +kernel) (by decide +kernel),
    Forest.few_of (by decide), unmarked_walk (by decide +kernel) (by decide +kernel), fun _ _ _ => short_transit _⟩

set_option maxRecDepth 100000 in
/-- **C63** is violated for good: an insert that reads an internode that is being changed replaces 20 by 99 in a wrong leaf and answers
`None`, as if the key were new; when all calls have returned, a `get` answers the old value. -/
theorem C63_insert_lost_for_good :
    let τ := trace false false empty lostInIndex
    let β := fun n => lostInIndex[n]?
    Exec false false τ β ∧ After1 τ β 1 0 845 959 960 986 (key8 20) 99 none (some 20) ∧ ∀ i, ((τ 960).ph i).over = true := by
  refine ⟨trace_exec _, after_of (f := act false false) (by decide +kernel) rfl rfl (by omega) (by omega) (by omega) (by decide +kernel) (by decide +kernel), ?_⟩
  intro i
  match i with
  | 0 => decide +kernel
  | 1 => decide +kernel
  | i + 2 => with_unfolding_all rfl

/-- The keys inserted in the steps of `as`. -/
def inserted (as : List (Act Nat)) : List Bytes :=
  as.filterMap fun | .call _ (.insert d _) => some d | _ => none

/-- Whenever no call is under way, `len` is not more than the number of keys ever inserted. -/
def LenIsSound (V : Type) (fixed strict : Bool) : Prop :=
  ∀ (τ : Nat → St V) β, Exec fixed strict τ β → ∀ n (ks : List Bytes), (∀ i, ((τ n).ph i).over = true) →
    (∀ i d v m, m < n → β m = some (.call i (.insert d v)) → d ∈ ks) → (τ n).count ≤ ks.length

set_option maxRecDepth 100000 in
/-- **C60** does not hold of the code: after the execution of `C63_insert_lost_for_good` no call is under way, 38 keys have been inserted,
and `len` is 39. -/
theorem C60_key_counted_twice : ¬ LenIsSound Nat false false := by
  intro h
  have := h (trace false false empty lostInIndex) (fun n => lostInIndex[n]?) (trace_exec _) 960 (inserted lostInIndex).dedup (fun i => ?_)
    fun i d v m _ e => ?_
  · revert this
    decide +kernel
  · match i with
    | 0 => decide +kernel
    | 1 => decide +kernel
    | i + 2 => with_unfolding_all rfl
  · rw [List.mem_dedup]
    exact List.mem_filterMap.2 ⟨_, List.mem_of_getElem? e, rfl⟩

/-- **C63** does not hold of the code. -/
theorem C63_not_always : ¬ Visible Nat false false := by
  intro h
  have := h _ _ C63_missed_while_layer_is_made.1 _ _ _ _ _ _ _ _ _ _ C63_missed_while_layer_is_made.2.1
  cases this

end Verif.Ops
