import Verif.Proof.LeafRacePlain
import Verif.Prop.TreeShape
import Verif.Prop.NodeVersion
set_option linter.unusedSimpArgs false
set_option linter.unusedVariables false
/-!
# Lookups and inserts that meet in one leaf: C29, C30, C45

Machine: `Model/LeafRace.lean`.  What a leaf says about a key: `Spec/LeafView.lean`.
-/
namespace Verif.Race
open Verif.Perm (size get)
open Verif.Tree
open Verif.Spec (Bytes Legal)
variable {V : Type}

/-- The state starts as some leaf of some tree built by inserts, unlocked, with any number of idle threads. -/
structure Start (hasPrev : Bool) (s : St V) : Prop where
  leaf : ∃ t : Tree V, Tree.Reachable t ∧ ∃ x, IsLeaf t x ∧ s.b = t.body x ∧ hasPrev = (t.prev x).isSome
  word : NV.Reachable s.word
  todo : s.todo = []
  rd : ∀ i, s.rd i = .idle

theorem Start.winv {hasPrev : Bool} {s : St V} (h : Start hasPrev s) : WInv s := by
  obtain ⟨t, ht, x, hx, hb, -⟩ := h.leaf
  obtain ⟨_, G, R⟩ := ht.reach
  obtain ⟨i, hi⟩ := hx.info R.inv
  exact .free h.todo (by rw [hb]; exact BodyOK.any (R.inv.body x i hx.2 hi)) h.word.idle

/-- No writer begins to turn a slot into a sublayer between steps `n0` and `n1`. -/
def NoConversion (σ : Nat → St V) (n0 n1 : Nat) : Prop :=
  ∀ n, n0 ≤ n → n ≤ n1 → ∀ s q, (σ n).todo ≠ conflictPlan s q

/-- **C30.** Whatever the schedule, however many readers and writers there are and however many critical sections a
lookup overlaps: as long as no slot is turned into a sublayer meanwhile, a lookup answers what the leaf said about the
key at some moment during the lookup. -/
theorem C30_lookup_linearizable {hasPrev : Bool} {σ : Nat → St V} {N : Nat} (he : Exec hasPrev σ N)
    (h0 : Start hasPrev (σ 0)) {i n0 n1 : Nat} (hN : n1 ≤ N) {k : Key} {r : Out V} (hl : Lookup σ i n0 n1 k r)
    (hc : NoConversion σ n0 n1) : ∃ m, n0 ≤ m ∧ m ≤ n1 ∧ Sees (σ m).b k r :=
  plain_saw he h0.winv hN hl (fun n h1 h2 => by rintro ⟨s, q, h⟩; exact hc n h1 h2 s q h)

/-- **C30, writers.** During the critical section of an insert that does not turn a slot into a sublayer, the leaf says
about every key what it said before, until the insert's last store; from then on it says that the inserted key has the
new value, and about every other key what it said before.  An insert that stores nothing changes nothing. -/
theorem C30_write_takes_effect_at_once {hasPrev : Bool} {σ : Nat → St V} {N : Nat} (he : Exec hasPrev σ N)
    (h0 : Start hasPrev (σ 0)) {n m : Nat} (hm : m ≤ N) {op : WOp V} (hs : Section hasPrev σ n m op)
    (hc : ∀ s q, (σ (n + 1)).todo ≠ conflictPlan s q) (k : Key) (r : Out V) :
    ((σ m).todo ≠ [] ∨ (σ (n + 1)).todo = [] → (Sees (σ m).b k r ↔ Sees (σ n).b k r)) ∧
    ((σ m).todo = [] → (σ (n + 1)).todo ≠ [] →
      (Sees (σ m).b k r ↔ (SameKey k op.k ∧ r = .value op.v) ∨ (¬ SameKey k op.k ∧ Sees (σ n).b k r))) := by
  obtain ⟨hb, -, done, e1, e2⟩ := section_run he h0.winv hm hs
  have ht : (σ (n + 1)).todo = plan (σ n).b hasPrev op := by rw [hs.first]
  have hp := plan_spec hb hasPrev op
  have hn : ¬ IsConf (plan (σ n).b hasPrev op) := by rintro ⟨s, q, h⟩; exact hc s q (ht.trans h)
  rw [← e2] at hp hn
  constructor
  · intro h
    rw [e1]
    rcases h with h | h
    · exact plan_hidden hb hs.key hp hn h k r
    · rw [ht, ← e2] at h
      have hd := (List.append_eq_nil_iff.1 h).1
      rw [hd]; rfl
  · intro h1 h2
    rw [e1]
    rw [ht, ← e2] at h2
    rw [h1, List.append_nil] at hp hn h2
    exact plan_effect hb hs.key hp hn h2 k r

/-- **C30, writers.** An insert that stores nothing found that its key belongs to a sublayer, or a leaf with at most one
free slot (which it will split). -/
theorem C30_idle_write_moves_on {hasPrev : Bool} {σ : Nat → St V} {N : Nat} (he : Exec hasPrev σ N)
    (h0 : Start hasPrev (σ 0)) {n m : Nat} (hm : m ≤ N) {op : WOp V} (hs : Section hasPrev σ n m op)
    (ht : (σ (n + 1)).todo = []) : (∃ q, Sees (σ n).b op.k (.descend q)) ∨ 23 ≤ size 5 (σ n).b.perm := by
  obtain ⟨hb, -, -⟩ := section_run he h0.winv hm hs
  rw [hs.first] at ht
  exact plan_nil hb ht

/-- **C30, scope.** A slot is turned into a sublayer only by an insert whose key agrees in the slot's 8-byte chunk and
differs later. -/
theorem C30_conversion_only_on_clash {hasPrev : Bool} {σ : Nat → St V} {N : Nat} (he : Exec hasPrev σ N)
    (h0 : Start hasPrev (σ 0)) {n m : Nat} (hm : m ≤ N) {op : WOp V} (hs : Section hasPrev σ n m op) {s q : Nat}
    (ht : (σ (n + 1)).todo = conflictPlan s q) :
    ∃ d, (σ n).b.ikey s = op.k.ikey ∧ (σ n).b.klx s = 64 ∧ (σ n).b.ksuf s = some d ∧ op.k.hasSuffix = true ∧
      d ≠ op.k.suffix := by
  obtain ⟨hb, -, -⟩ := section_run he h0.winv hm hs
  have hp := plan_spec hb hasPrev op
  have ht' : plan (σ n).b hasPrev op = conflictPlan s q := by rw [hs.first] at ht; exact ht
  generalize plan (σ n).b hasPrev op = l at hp ht'
  cases hp with
  | none => simp [conflictPlan] at ht'
  | update => simp [conflictPlan] at ht'
  | insert p1 pos => exact absurd ⟨_, _, ht'⟩ (insertPlan_not_conf _ _ _ _)
  | conflict j hj hi hsf hk v hc d hd hne =>
    have e : get 5 (σ n).b.perm j = s := by simp [conflictPlan] at ht'; exact ht'.1
    subst e
    have hk' : (σ n).b.klx (get 5 (σ n).b.perm j) = 64 := hk
    refine ⟨d, hi, hk', ?_, hsf, hne⟩
    have hd : (σ n).b.suf (get 5 (σ n).b.perm j) = some d := hd
    unfold Leaf.suf at hd
    rw [if_pos (by rw [hk']; rfl)] at hd
    exact hd

/-- **C29, partial.** With any writers at all, also such that turn slots into sublayers: a lookup of a key with at least
one byte left at this layer that finds something finds what the leaf said at some moment during the lookup.  Missing: a
lookup that finds nothing may be wrong (`C29_present_key_missed`), and so may any lookup of the empty key
(`C45_sublayer_read_as_value`); fewer than `2^19` critical sections may end during the lookup. -/
theorem C29_found_is_right_partial {hasPrev : Bool} {σ : Nat → St V} {N : Nat} (he : Exec hasPrev σ N)
    (h0 : Start hasPrev (σ 0)) {i n0 n1 : Nat} (hN : n1 ≤ N) {k : Key} {r : Out V} (hl : Lookup σ i n0 n1 k r)
    (hs : (σ n1).secs - (σ n0).secs < 2 ^ 19) (hk : 0 < k.currentLen) (hr : r ≠ .absent) :
    ∃ m, n0 ≤ m ∧ m ≤ n1 ∧ Sees (σ m).b k r := by
  have hk' : 0 < searchKlx k := by
    rcases searchKlx_cases k with ⟨_, c2, _⟩ | ⟨_, c2, _⟩ <;> omega
  obtain ⟨m, h1, h2, h3⟩ := lookup_seen (nc := False) he h0.winv hN hl hs (fun h => h.elim) (fun h => hr h)
    (fun _ => Or.inl hk')
  refine ⟨m, h1, h2, sees_of_seqFind h3 ?_⟩
  rintro rfl
  exact (exec_inv he h0.winv m (by omega)).clean.find k h3

/-- **C45, partial.** With any writers at all, a lookup of a key with at least one byte left at this layer never uses a
pointer as something it is not.  Missing: the empty key (`C45_sublayer_read_as_value`). -/
theorem C45_no_misread_partial {hasPrev : Bool} {σ : Nat → St V} {N : Nat} (he : Exec hasPrev σ N)
    (h0 : Start hasPrev (σ 0)) {i n0 n1 : Nat} (hN : n1 ≤ N) {k : Key} {r : Out V} (hl : Lookup σ i n0 n1 k r)
    (hs : (σ n1).secs - (σ n0).secs < 2 ^ 19) (hk : 0 < k.currentLen) : r ≠ .misread := by
  rintro rfl
  obtain ⟨m, _, _, h⟩ := C29_found_is_right_partial he h0 hN hl hs hk (by simp)
  exact h

/-! ## Executions as lists of actions -/

inductive Act where
  | start (i : Nat) (d : Bytes)
  | read (i : Nat)
  | lock (d : Bytes) (v q : Nat)
  | store
  | unlock

/-- The action if it is enabled. -/
def act (hasPrev : Bool) (s : St Nat) : Act → Option (St Nat)
  | .start i d =>
    if s.rd i = .idle then some { s with rd := Verif.Internode.upd s.rd i (.stable (Key.mk' d)) } else none
  | .read i => some { s with rd := Verif.Internode.upd s.rd i (rstep s.b s.word (s.rd i)) }
  | .lock d v q =>
    if NV.lockable s.word = true ∧ d.length ≤ maxKeyLength then
      some { s with word := NV.lockedOf s.word, todo := plan s.b hasPrev ⟨Key.mk' d, v, q⟩ }
    else none
  | .store =>
    match s.todo with
    | m :: ms => some { s with b := m.app s.b, todo := ms }
    | [] => none
  | .unlock =>
    if s.todo.isEmpty = true ∧ NV.isLocked s.word = true then
      some { s with word := NV.unlockOf s.word, secs := s.secs + 1 }
    else none

theorem act_step {hasPrev : Bool} {s s' : St Nat} {a : Act} (h : act hasPrev s a = some s') : Step hasPrev s s' := by
  cases a with
  | start i d =>
    simp only [act] at h
    split at h
    · cases h; exact .start s i _ (Or.inl (by assumption))
    · cases h
  | read i => cases h; exact .read s i
  | lock d v q =>
    simp only [act] at h
    split at h
    · rename_i hc
      cases h; exact .lock s ⟨Key.mk' d, v, q⟩ hc.1 ⟨d, 0, hc.2, rfl⟩
    · cases h
  | store =>
    simp only [act] at h
    split at h
    · rename_i m ms hm
      cases h; exact .store s m ms hm
    · cases h
  | unlock =>
    simp only [act] at h
    split at h
    · rename_i hc
      cases h; exact .unlock s (by simpa using hc.1) hc.2
    · cases h

/-- State after the first `n` actions. -/
def trace (hasPrev : Bool) (s : St Nat) : List Act → Nat → St Nat
  | _, 0 => s
  | [], _ + 1 => s
  | a :: l, n + 1 =>
    match act hasPrev s a with
    | some s' => trace hasPrev s' l n
    | none => s

/-- All actions are enabled in turn. -/
def allOk (hasPrev : Bool) (s : St Nat) : List Act → Bool
  | [] => true
  | a :: l =>
    match act hasPrev s a with
    | some s' => allOk hasPrev s' l
    | none => false

theorem trace_zero {hasPrev : Bool} {s : St Nat} (l : List Act) : trace hasPrev s l 0 = s := by cases l <;> rfl

theorem trace_exec {hasPrev : Bool} : ∀ {l : List Act} {s : St Nat}, allOk hasPrev s l = true →
    Exec hasPrev (trace hasPrev s l) l.length := by
  intro l
  induction l with
  | nil => intro s _ n hn; cases hn
  | cons a l ih =>
    intro s h n hn
    simp only [allOk] at h
    cases ha : act hasPrev s a with
    | none => rw [ha] at h; cases h
    | some s' =>
      rw [ha] at h
      cases n with
      | zero =>
        simp only [trace, ha, trace_zero]
        exact act_step ha
      | succ n =>
        have := ih h n (by simpa using hn)
        simp only [trace, ha]
        exact this

/-- The tree a history builds. -/
def treeOf (h : List (Bytes × Nat)) : Tree Nat :=
  match runFrom empty h with
  | .ok (t, _) => t
  | .error _ => empty

theorem treeOf_reachable {h : List (Bytes × Nat)} (hl : Legal h) : Tree.Reachable (treeOf h) := by
  obtain ⟨t, os, _, h1, _⟩ := history_ok (fun _ => False) h hl
  refine ⟨h, os, hl, ?_⟩
  unfold treeOf; rw [h1]

/-- The first leaf of a tree. -/
def startOf (h : List (Bytes × Nat)) : St Nat := ⟨(treeOf h).body 0, NV.new true, [], 0, fun _ => .idle⟩

theorem startOf_start {h : List (Bytes × Nat)} (hl : Legal h) (h1 : 0 < (treeOf h).fresh)
    (h2 : (treeOf h).kind 0 = some .leaf) (h3 : (treeOf h).prev 0 = none) : Start false (startOf h) :=
  ⟨⟨_, treeOf_reachable hl, 0, ⟨h1, h2⟩, rfl, by rw [h3]; rfl⟩, .new true, rfl, fun _ => rfl⟩

def isDone : RPc Nat → Bool
  | .done _ _ => true
  | _ => false

theorem lookup_of {σ : Nat → St Nat} {i n0 n1 : Nat} {k : Key} {r : Out Nat} (h1 : n0 ≤ n1)
    (h2 : (σ n0).rd i = .stable k) (h3 : ∀ n, n < n1 → n0 ≤ n → isDone ((σ n).rd i) = false)
    (h4 : (σ n1).rd i = .done k r) : Lookup σ i n0 n1 k r :=
  ⟨h1, h2, fun n a b k' r' e => (by have := h3 n b a; rw [e] at this; cases this), h4⟩

set_option maxRecDepth 100000

/-- The key of the witnesses: nine bytes. -/
def key9 (x : UInt8) : Bytes := [1, 2, 3, 4, 5, 6, 7, 8, x]

/-- One reader looks for `key9 1`, whose slot a writer of `key9 2` turns into a sublayer. -/
def missSchedule : List Act :=
  [.start 0 (key9 1), .read 0,               -- version
   .lock (key9 2) 20 7, .store,              -- the slot's pointer is now null
   .read 0, .read 0, .read 0, .read 0,       -- permutation, ikey, keylenx, pointer (null: skipped)
   .read 0, .read 0,                         -- end of scan, validation
   .store, .store, .store, .store, .unlock,  -- the sublayer is in place
   .read 0]                                  -- not dirty: not found

theorem start_key9 : Start false (startOf [(key9 1, 10)]) :=
  startOf_start ⟨by decide, by decide⟩ (by decide +kernel) (by decide +kernel) (by decide +kernel)

/-- **C29 is violated.** One reader and one writer.  The key `key9 1` is in the leaf, and then in the sublayer that
replaces its slot, at every moment at which no critical section is in progress; a lookup of it answers that it is
absent. -/
theorem C29_present_key_missed : ∃ (σ : Nat → St Nat) (N : Nat), Exec false σ N ∧ Start false (σ 0) ∧
    Lookup σ 0 1 N (Key.mk' (key9 1)) .absent ∧ (σ N).secs = 1 ∧
    ∀ n, n ≤ N → NV.isLocked (σ n).word = false →
      Sees (σ n).b (Key.mk' (key9 1)) (.value 10) ∨ Sees (σ n).b (Key.mk' (key9 1)) (.descend 7) := by
  have hok : allOk false (startOf [(key9 1, 10)]) missSchedule = true := by decide +kernel
  have he := trace_exec hok
  have h0 : Start false (trace false (startOf [(key9 1, 10)]) missSchedule 0) := by rw [trace_zero]; exact start_key9
  refine ⟨trace false (startOf [(key9 1, 10)]) missSchedule, missSchedule.length, he, h0,
    lookup_of (by decide) (by decide +kernel) (by decide +kernel) (by decide +kernel), by decide +kernel, ?_⟩
  intro n hn hlk
  have key : ∀ n, n ≤ missSchedule.length →
      NV.isLocked (trace false (startOf [(key9 1, 10)]) missSchedule n).word = false →
      seqFind (trace false (startOf [(key9 1, 10)]) missSchedule n).b (Key.mk' (key9 1)) = .value 10 ∨
      seqFind (trace false (startOf [(key9 1, 10)]) missSchedule n).b (Key.mk' (key9 1)) = .descend 7 := by
    decide +kernel
  rcases key n hn hlk with h | h
  · exact Or.inl (sees_of_seqFind h (by simp))
  · exact Or.inr (sees_of_seqFind h (by simp))

/-- Eight zero bytes and one more. -/
def zero9 (x : UInt8) : Bytes := [0, 0, 0, 0, 0, 0, 0, 0, x]

/-- One reader looks for the empty key while the slot of `zero9 1` is turned into a sublayer. -/
def misreadSchedule : List Act :=
  [.start 0 [], .read 0,                     -- version
   .lock (zero9 2) 20 7, .store, .store, .store,  -- pointer null, suffix cleared, keylenx 0
   .read 0, .read 0, .read 0,                -- permutation, ikey (0), keylenx (0)
   .store, .store,                           -- keylenx 128, pointer to the sublayer
   .read 0,                                  -- pointer
   .read 0]                                  -- validation

theorem start_zero9 : Start false (startOf [(zero9 1, 10)]) :=
  startOf_start ⟨by decide, by decide⟩ (by decide +kernel) (by decide +kernel) (by decide +kernel)

/-- **C45 is violated.** One reader and one writer.  A lookup of the empty key, which is never in the tree, ends by using
the address of a sublayer as the address of a value. -/
theorem C45_sublayer_read_as_value : ∃ (σ : Nat → St Nat) (N : Nat), Exec false σ N ∧ Start false (σ 0) ∧
    Lookup σ 0 1 N (Key.mk' []) .misread ∧ (∀ n, n ≤ N → Sees (σ n).b (Key.mk' []) .absent) := by
  have hok : allOk false (startOf [(zero9 1, 10)]) misreadSchedule = true := by decide +kernel
  have he := trace_exec hok
  have h0 : Start false (trace false (startOf [(zero9 1, 10)]) misreadSchedule 0) := by rw [trace_zero]; exact start_zero9
  refine ⟨trace false (startOf [(zero9 1, 10)]) misreadSchedule, misreadSchedule.length, he, h0,
    lookup_of (by decide) (by decide +kernel) (by decide +kernel) (by decide +kernel), ?_⟩
  intro n hn
  have key : ∀ n, n ≤ misreadSchedule.length →
      seqFind (trace false (startOf [(zero9 1, 10)]) misreadSchedule n).b (Key.mk' []) = .absent := by
    decide +kernel
  exact sees_of_seqFind (key n hn) (by simp)

/-! ## The hypotheses are met -/

/-- Two readers and one writer, which updates the looked-up key and then inserts another key: one reader gets the old
value, the other the new one. -/
def plainSchedule : List Act :=
  [.start 0 (key9 1), .start 1 (key9 1), .read 0, .read 1, .read 0, .read 0, .read 0, .read 0,
   .lock (key9 1) 11 7, .store, .read 0, .read 0,
   .read 1, .read 1, .read 1, .read 1, .read 1, .read 1, .read 1,  -- 11
   .read 0,                                                       -- 10
   .unlock, .start 2 [9], .read 2, .lock [9] 12 7, .store, .store, .store, .read 2, .store, .unlock,
   .read 2, .read 2, .read 2,                                     -- not found, and the version changed
   .read 2, .read 2, .read 2, .read 2, .read 2, .read 2, .read 2] -- 12

/-- Witness for `C30_lookup_linearizable`, `C30_write_takes_effect_at_once`: lookups that overlap an update and an insert. -/
theorem C30_witness : ∃ (σ : Nat → St Nat) (N : Nat), Exec false σ N ∧ Start false (σ 0) ∧ NoConversion σ 0 N ∧
    Lookup σ 0 1 20 (Key.mk' (key9 1)) (.value 10) ∧ Lookup σ 1 2 19 (Key.mk' (key9 1)) (.value 11) ∧
    Lookup σ 2 22 N (Key.mk' [9]) (.value 12) ∧ 22 < N ∧
    Section false σ 8 20 ⟨Key.mk' (key9 1), 11, 7⟩ ∧ (σ 9).todo ≠ [] ∧
    Section false σ 23 29 ⟨Key.mk' [9], 12, 7⟩ ∧ (σ 24).todo ≠ [] := by
  have hok : allOk false (startOf [(key9 1, 10)]) plainSchedule = true := by decide +kernel
  have he := trace_exec hok
  have h0 : Start false (trace false (startOf [(key9 1, 10)]) plainSchedule 0) := by rw [trace_zero]; exact start_key9
  refine ⟨trace false (startOf [(key9 1, 10)]) plainSchedule, plainSchedule.length, he, h0, ?_,
    lookup_of (by decide) (by decide +kernel) (by decide +kernel) (by decide +kernel),
    lookup_of (by decide) (by decide +kernel) (by decide +kernel) (by decide +kernel),
    lookup_of (by decide) (by decide +kernel) (by decide +kernel) (by decide +kernel), by decide,
    ⟨by decide, by decide +kernel, ⟨key9 1, 0, by decide, rfl⟩, rfl, by decide +kernel⟩, ?_,
    ⟨by decide, by decide +kernel, ⟨[9], 0, by decide, rfl⟩, rfl, by decide +kernel⟩, ?_⟩
  · intro n _ hn s q e
    have key : ∀ n, n ≤ plainSchedule.length →
        (trace false (startOf [(key9 1, 10)]) plainSchedule n).todo.length ≠ 5 := by decide +kernel
    exact key n hn (by rw [e]; rfl)
  · intro e
    have key : (trace false (startOf [(key9 1, 10)]) plainSchedule 9).todo.length ≠ 0 := by decide +kernel
    exact key (by rw [e]; rfl)
  · intro e
    have key : (trace false (startOf [(key9 1, 10)]) plainSchedule 24).todo.length ≠ 0 := by decide +kernel
    exact key (by rw [e]; rfl)

/-- Witness for `C29_found_is_right_partial` and `C45_no_misread_partial`: a lookup during which the slot of its key is
turned into a sublayer ends in that sublayer. -/
theorem C29_witness : ∃ (σ : Nat → St Nat) (N : Nat), Exec false σ N ∧ Start false (σ 0) ∧
    Lookup σ 0 1 N (Key.mk' (key9 1)) (.descend 7) ∧ (σ N).secs = 1 ∧ 0 < (Key.mk' (key9 1)).currentLen := by
  have hok : allOk false (startOf [(key9 1, 10)])
    ([.start 0 (key9 1), .read 0, .read 0, .lock (key9 2) 20 7, .store, .store, .read 0, .read 0, .store, .store, .store,
      .unlock, .read 0, .read 0, .read 0, .read 0, .read 0, .read 0, .read 0, .read 0, .read 0, .read 0]) = true := by decide +kernel
  have he := trace_exec hok
  exact ⟨_, _, he, by rw [trace_zero]; exact start_key9,
    lookup_of (by decide) (by decide +kernel) (by decide +kernel) (by decide +kernel), by decide +kernel, by decide⟩

end Verif.Race
