import Verif.Proof.BagRace
set_option linter.unusedSimpArgs false
set_option linter.unusedVariables false
/-!
# Reading the rest of a long key while others are stored in the same node: C53, C54

Machine: `Model/BagRace.lean`.  Executions and what is meant by reading, calm and racy: `Spec/BagRace.lean`.  What a slot holds after a
list of calls: `Spec/Suffix.lean`.
-/
namespace Verif.BagRace
open Verif.Spec (Bytes)
open Verif.Suffix (LOp)
open Verif.Internode (upd)
open Verif.Spec.Suffix (LMap lrun ltotal LLegal)

theorem ops_mono {b : Bool} {s s' : St} (h : Step b s s') : ltotal s.ops ≤ ltotal s'.ops := by
  cases h <;> simp [ltotal_snoc]

theorem Exec.small {b : Bool} {σ : Nat → St} (h : Exec b σ) {j n : Nat} (hj : j ≤ n) (hn : Small σ n) : Small σ j := by
  induction n with
  | zero => rw [show j = 0 by omega]; exact hn
  | succ n ih =>
    by_cases e : j = n + 1
    · subst e; exact hn
    · refine ih (by omega) ?_
      rcases h.step n with h' | h'
      · unfold Small at hn ⊢; rw [← h']; exact hn
      · have := ops_mono h'; unfold Small at hn ⊢; omega

theorem Fresh.init {l : List LOp} {o : LOp} (h : Fresh (l ++ [o])) : Fresh l :=
  fun pre s x c g post e => h pre s x c g (post ++ [o]) (by rw [e]; simp)

theorem fresh_step {b : Bool} {s s' : St} (h : Step b s s') (hf : Fresh s'.ops) : Fresh s.ops := by
  cases h with
  | call o => exact hf.init
  | _ => exact hf

theorem Exec.inv {b : Bool} {σ : Nat → St} (h : Exec b σ) {n : Nat} (hn : Small σ n) :
    ∃ u k, Inv u k (σ n) ∧ ((b = true → Fresh (σ n).ops) → ∀ i, SafePc b u (σ n).L ((σ n).rd i)) := by
  induction n with
  | zero => rw [h.init]; exact ⟨0, 0, inv_init, fun _ _ => trivial⟩
  | succ n ih =>
    obtain ⟨u, k, h1, h2⟩ := ih (h.small (Nat.le_succ n) hn)
    rcases h.step n with h' | h'
    · rw [h']; exact ⟨u, k, h1, h2⟩
    · obtain ⟨u', k', h3, h4⟩ := step_inv h' h1 hn
      exact ⟨u', k', h3, fun e => h4 e (h2 fun hb => fresh_step h' (e hb))⟩

theorem Exec.exact {b : Bool} {σ : Nat → St} (h : Exec b σ) {i x a n : Nat} (hn : Small σ n) (hr : Reading σ i x a n) (hc : Calm σ x a n) :
    x < 24 ∧ Exact (lrun empty (σ n).ops) (σ n).L x ((σ n).rd i) := by
  obtain ⟨_, _, hi, -⟩ := h.inv (h.small hr.le hn)
  have hx : x < 24 := hi.slot i x (by rw [hr.start]; rfl)
  refine ⟨hx, ?_⟩
  obtain ⟨d, rfl⟩ := Nat.exists_eq_add_of_le hr.le
  clear hi
  induction d with
  | zero => show Exact _ _ x ((σ a).rd i); rw [hr.start]; rfl
  | succ d ih =>
    have hn' := h.small (Nat.le_succ _) hn
    have hr' : Reading σ i x a (a + d) := ⟨by omega, hr.start, fun j h1 h2 => hr.going j h1 (by omega)⟩
    have hc' : Calm σ x a (a + d) := fun j h1 h2 => hc j h1 (by omega)
    have := ih hn' hr' hc'
    rcases h.step (a + d) with h' | h'
    · rw [show a + (d + 1) = a + d + 1 by omega, h']; exact this
    · obtain ⟨u, k, hi, -⟩ := h.inv hn'
      exact exact_step h' hi hx (hc _ (by omega) (by omega)) (hc _ (by omega) (by omega)) (hr.going _ (by omega) (by omega)) this

/-- **C53, what is read.** A reader of a slot's suffix, while the lock holder stores suffixes in other slots of the leaf (in place, or
by replacing the bag): it never runs out of bounds, and what it returns is what the calls stored in the slot, in whichever order
the machine reads the two fields of the metadata. -/
theorem C53_reads_what_was_stored {b : Bool} {σ : Nat → St} (h : Exec b σ) {i x a n : Nat} (hn : Small σ n) (hr : Reading σ i x a n)
    (hc : Calm σ x a n) :
    (σ n).rd i ≠ .panic x ∧ (∀ p j, ((σ n).rd i).loc = some (.byte p j) → j < ((σ n).L.bag p).used) ∧
    (∀ r, (σ n).rd i = .done x r → ∀ j, a ≤ j → j ≤ n → r = (lrun empty (σ j).ops).read x) := by
  obtain ⟨hx, he⟩ := h.exact hn hr hc
  refine ⟨fun e => by rw [e] at he; exact he, fun p j e => ?_, fun r hr' => ?_⟩
  · obtain ⟨u, k, hi, -⟩ := h.inv hn
    have hb := fun p hp => (hi.held i p hp).1
    generalize (σ n).rd i = c at *
    cases c <;> simp only [RPc.loc, Option.some.injEq, reduceCtorEq] at e
    split at e
    · simp only [Option.some.injEq, Loc.byte.injEq] at e
      obtain ⟨rfl, rfl⟩ := e
      obtain ⟨rfl, _, _, h4, h5, h6, _, _⟩ := he
      have := hi.good.stage.bag _ (hb _ rfl) _ hx (by rw [← h4]; exact h6)
      rw [← h4, ← h5] at this
      omega
    · simp at e
  rw [hr'] at he
  have key : ∀ d j, j + d = n → a ≤ j → (lrun empty (σ j).ops).klx x = (lrun empty (σ n).ops).klx x ∧
      (lrun empty (σ j).ops).suf x = (lrun empty (σ n).ops).suf x := by
    intro d
    induction d with
    | zero => intro j hj _; rw [show j = n by omega]; exact ⟨rfl, rfl⟩
    | succ d ih =>
      intro j hj ha
      rw [← (ih (j + 1) (by omega) (by omega)).1, ← (ih (j + 1) (by omega) (by omega)).2]
      rcases h.step j with h' | h'
      · rw [h']; exact ⟨rfl, rfl⟩
      · obtain ⟨u, k, hi, -⟩ := h.inv (h.small (show j ≤ n by omega) hn)
        generalize hs : σ j = s at *
        generalize hs' : σ (j + 1) = s' at *
        cases h' with
        | call o swap h1 h2 h3 =>
          obtain ⟨k', hk'⟩ := Option.ne_none_iff_exists'.mp h3
          have hk : x ≠ k' := by
            intro e
            have := hc (j + 1) (by omega) (by omega)
            rw [hs'] at this
            refine this ?_ (by simp [St.target, hk', e])
            exact plan_ne hk'
          simp only [lrun_snoc]
          exact ⟨(lstep_other hk' hk).1.symm, (lstep_other hk' hk).2.symm⟩
        | _ => exact ⟨rfl, rfl⟩
  intro j h1 h2
  have := key (n - j) j (by omega) h1
  rw [he.2]
  simp only [LMap.read, this.1, this.2]

/-- **C53, lifetime.** A bag that a reader holds a pointer to has not been released: neither has the one in the leaf.  Every bag is
retired at most once, never while it is in the leaf, and none is forgotten: between two calls every bag but the one in the leaf is
retired. -/
theorem C53_bags_outlive_readers {b : Bool} {σ : Nat → St} (h : Exec b σ) {n : Nat} (hn : Small σ n) :
    (∀ i p, ((σ n).rd i).bag = some p → (σ n).freed p = false) ∧
    (∀ p, (σ n).L.ptr = some p → (σ n).freed p = false ∧ (σ n).L.ret p = none) ∧
    (∀ p ms, (σ n).todo = .retire p :: ms → (σ n).L.ret p = none ∧ (σ n).L.ptr ≠ some p) ∧
    ((σ n).todo = [] → ∀ p, p < (σ n).L.next → (σ n).L.ptr ≠ some p → (σ n).L.ret p ≠ none) := by
  obtain ⟨u, k, hi, -⟩ := h.inv hn
  have hl := hi.good.stage.life
  refine ⟨fun i p hp => ?_, fun p hp => ⟨?_, (hl.cur p hp).2⟩, fun p ms ht => ?_, fun ht p h1 h2 => ?_⟩
  · cases hf : (σ n).freed p with
    | false => rfl
    | true =>
      obtain ⟨t, h1, h2⟩ := hi.freed p hf
      obtain ⟨_, t', h3, h4⟩ := hi.held i p hp
      have := h2 i t' h3
      have := h4 t h1
      omega
  · cases hf : (σ n).freed p with
    | false => rfl
    | true =>
      obtain ⟨t, h1, h2⟩ := hi.freed p hf
      rw [(hl.cur p hp).2] at h1; cases h1
  · have hg := hi.good
    rw [ht] at hg
    exact ⟨hg.2.2.1.2.2, hg.2.2.1.2.1⟩
  · rcases hl.own p h1 h2 with h | h
    · exact h
    · rw [ht] at h; simp at h

/-- **C54, the race.** Full claim, refuted below by `C54_race`: no thread ever reads plain memory that another is about to write.  Proved
here: while the calls go to other slots, the only plain memory on which a reader of a slot can race is the length of the bag's
data. -/
theorem C54_only_length_races_partial {b : Bool} {σ : Nat → St} (h : Exec b σ) {i x a n : Nat} (hn : Small σ n) (hr : Reading σ i x a n)
    (hc : Calm σ x a n) {l : Loc} (hl : Racy (σ n) i l) : ∃ p, l = .used p := by
  obtain ⟨hx, he⟩ := h.exact hn hr hc
  obtain ⟨u, k, hi, -⟩ := h.inv hn
  obtain ⟨m, ms, ht, h1, h2⟩ := hl
  have hg := hi.good
  rw [ht] at hg
  have ha := hg.2.2.1
  have hk : x ≠ k := by
    intro e
    refine hc n hr.le (Nat.le_refl _) (by rw [ht]; simp) ?_
    rw [e]; exact hi.tgt (by rw [ht]; simp)
  generalize hpc : (σ n).rd i = c at *
  cases hp : (σ n).L.ptr with
  | none => cases m <;> simp [Micro.loc, hp] at h2
  | some p =>
    cases m with
    | used v => simp only [Micro.loc, hp, Option.map_some, Option.some.injEq] at h2; exact ⟨p, h2.symm⟩
    | klx => simp [Micro.loc] at h2
    | publish => simp [Micro.loc] at h2
    | retire => simp [Micro.loc] at h2
    | off s o =>
      have ha : s = k := ha
      simp only [Micro.loc, hp, Option.map_some, Option.some.injEq] at h2; subst h2
      cases c <;> simp only [RPc.loc, Option.some.injEq, reduceCtorEq, Loc.off.injEq] at h1
      · exact absurd (he.1.symm.trans (h1.2.trans ha)) hk
      · exact absurd (he.1.symm.trans (h1.2.trans ha)) hk
      · split at h1 <;> simp at h1
    | len s o =>
      have ha : s = k := ha.1
      simp only [Micro.loc, hp, Option.map_some, Option.some.injEq] at h2; subst h2
      cases c <;> simp only [RPc.loc, Option.some.injEq, reduceCtorEq, Loc.len.injEq] at h1
      · exact absurd (he.1.symm.trans (h1.2.trans ha)) hk
      · exact absurd (he.1.symm.trans (h1.2.trans ha)) hk
      · split at h1 <;> simp at h1
    | byte j y =>
      obtain ⟨q, hq, hd⟩ := ha
      rw [hp] at hq; cases hq
      simp only [Micro.loc, hp, Option.map_some, Option.some.injEq] at h2; subst h2
      cases c <;> simp only [RPc.loc, Option.some.injEq, reduceCtorEq] at h1
      next s q o l acc =>
        split at h1
        · simp only [Option.some.injEq, Loc.byte.injEq] at h1
          obtain ⟨rfl, rfl⟩ := h1
          obtain ⟨rfl, _, _, h4, h5, h6, _, _⟩ := he
          subst h4; subst h5
          have := hd s hx hk h6
          omega
        · simp at h1

/-- **C54, no panic.** Although readers race with the lock holder, also on the slot that they read, they never run out of bounds: in
whichever order they read the two fields of the metadata, provided that suffixes are stored only in slots that hold none; and if they
read the offset no later than the length, then without that proviso.  (`C54_length_first_panics`: otherwise they can.) -/
theorem C54_no_panic_partial {b : Bool} {σ : Nat → St} (h : Exec b σ) {n : Nat} (hn : Small σ n) (hb : b = true → Fresh (σ n).ops) (i x : Nat) :
    (σ n).rd i ≠ .panic x ∧
    (∀ p j, ((σ n).rd i).loc = some (.byte p j) → j < ((σ n).L.bag p).used) := by
  obtain ⟨u, k, -, h2⟩ := h.inv hn
  have := h2 hb i
  refine ⟨fun e => by rw [e] at this; exact this, fun p j e => ?_⟩
  generalize (σ n).rd i = c at *
  cases c <;> simp only [RPc.loc, Option.some.injEq, reduceCtorEq] at e
  split at e
  · simp only [Option.some.injEq, Loc.byte.injEq] at e
    obtain ⟨rfl, rfl⟩ := e
    simp only [SafePc] at this
    omega
  · simp at e

/-! ## Executions -/

/-- A step to be made. -/
inductive Act where
  | call (o : LOp) (swap : Bool)
  | write
  | enter (i : Nat)
  | start (i x : Nat)
  | read (i : Nat)

def legal : LOp → Bool
  | .assign s x _ _ => decide (s < 24 ∧ x.length < 2 ^ 16)
  | .clear s _ => decide (s < 24)
  | .compact _ _ _ _ => false
  | .setKlx s _ => decide (s < 24)

/-- The step, if it can be made. -/
def act (b : Bool) (s : St) : Act → St
  | .call o swap => if s.todo.isEmpty && legal o then { s with todo := plan s.L swap o, ops := s.ops ++ [o] } else s
  | .write =>
    match s.todo with
    | [] => s
    | m :: ms => { s with L := m.app s.L, todo := ms }
  | .enter i => if (s.guard i).isNone && decide (s.rd i = .idle) then { s with guard := upd s.guard i (some s.L.now) } else s
  | .start i x => if (s.guard i).isSome && decide (x < 24) && decide (s.rd i = .idle) then { s with rd := upd s.rd i (.klx x) } else s
  | .read i => { s with rd := upd s.rd i (rstep b s.L (s.rd i)) }

theorem act_step (b : Bool) (s : St) (a : Act) : act b s a = s ∨ Step b s (act b s a) := by
  cases a with
  | call o swap =>
    simp only [act]
    split
    · next h =>
      simp only [Bool.and_eq_true, List.isEmpty_iff] at h
      right
      refine .call s o swap h.1 ?_ ?_ <;>
        · have := h.2
          cases o <;> simp_all [legal, LLegal, slotOf]
    · exact .inl rfl
  | write =>
    simp only [act]
    split
    · exact .inl rfl
    · next m ms h => exact .inr (.write s m ms h)
  | enter i =>
    simp only [act]
    split
    · next h =>
      simp only [Bool.and_eq_true, Option.isNone_iff_eq_none, decide_eq_true_eq] at h
      exact .inr (.enter s i h.1 h.2)
    · exact .inl rfl
  | start i x =>
    simp only [act]
    split
    · next h =>
      simp only [Bool.and_eq_true, decide_eq_true_eq] at h
      refine .inr (.start s i x ?_ h.1.2 (.inl h.2))
      intro e; rw [e] at h; simp at h
    · exact .inl rfl
  | read i => exact .inr (.read s i)

/-- The execution that makes the given steps. -/
def trace (b : Bool) (as : List Act) (n : Nat) : St := (as.take n).foldl (act b) St.init

theorem trace_exec (b : Bool) (as : List Act) : Exec b (trace b as) := by
  refine ⟨by simp [trace], fun n => ?_⟩
  unfold trace
  by_cases h : n < as.length
  · rw [List.take_succ_eq_append_getElem h, List.foldl_append]
    exact act_step b _ _
  · left
    rw [List.take_of_length_le (by omega), List.take_of_length_le (by omega)]

set_option maxRecDepth 100000

/-- A key's suffix `[1, 2]` is in slot 0; a lookup has read its metadata; an insert of another long key has copied its suffix `[3]`
behind it. -/
def raceActs : List Act :=
  [.call (.assign 0 [1, 2] 0 0) false, .write, .write,
   .enter 7, .start 7 0, .read 7, .read 7, .read 7, .read 7,
   .call (.assign 1 [3] 0 0) false, .write]

theorem reading_of {b : Bool} {as : List Act} {i x a n : Nat} (h1 : a ≤ n) (h2 : (trace b as a).rd i = .klx x)
    (h3 : ∀ j, j < n - a → (match (trace b as (a + j)).rd i with | .done _ _ => false | _ => true) = true) :
    Reading (trace b as) i x a n := by
  refine ⟨h1, h2, fun j h4 h5 r e => ?_⟩
  have := h3 (j - a) (by omega)
  rw [show a + (j - a) = j by omega, e] at this
  simp at this

theorem calm_of {b : Bool} {as : List Act} {x a n : Nat}
    (h : ∀ j, j < n + 1 - a → (trace b as (a + j)).todo.isEmpty = true ∨ (trace b as (a + j)).target ≠ some x) : Calm (trace b as) x a n := by
  intro j h1 h2 h3
  rcases h (j - a) (by omega) with h | h
  · rw [show a + (j - a) = j by omega, List.isEmpty_iff] at h; exact absurd h h3
  · rw [show a + (j - a) = j by omega] at h; exact h

/-- **C54, refuted.** A lookup of a stored long key and an insert of another long key in the same node: the lookup is about to read the
length of the vector (a plain field) and the insert is about to write it.  The slot that the lookup reads is not touched. -/
theorem C54_race : ∃ (σ : Nat → St) (n a : Nat), Exec false σ ∧ Small σ n ∧ Reading σ 7 0 a n ∧ Calm σ 0 a n ∧
    Racy (σ n) 7 (.used 0) := by
  refine ⟨trace false raceActs, 11, 5, trace_exec _ _, by unfold Small; decide +kernel, ?_, ?_, ?_⟩
  · exact reading_of (by decide) (by decide +kernel) (by decide +kernel)
  · exact calm_of (by decide +kernel)
  · exact ⟨.used 3, [.off 1 2, .len 1 1, .klx 1 64], by with_unfolding_all rfl, by decide +kernel, by decide +kernel⟩

/-- The same lookup, which goes on while the insert ends, and another insert that needs a new bag and retires the old one. -/
def readActs : List Act :=
  raceActs ++ [.write, .read 7, .write, .write, .read 7, .write, .call (.assign 2 (List.replicate 200 4) 0 0) true, .write, .write,
    .read 7, .write, .read 7]

/-- **C53, witness.** The hypotheses are met by a lookup that overlaps with an insert in place and with one that replaces the bag that
the lookup reads and retires it; the lookup returns what is stored. -/
theorem C53_witness : ∃ (σ : Nat → St) (n a : Nat), Exec false σ ∧ Small σ n ∧ Reading σ 7 0 a n ∧ Calm σ 0 a n ∧
    (σ n).rd 7 = .done 0 (some [1, 2]) ∧ (σ (n - 1)).rd 7 = .byte 0 0 0 2 [1, 2] ∧ (σ n).L.ptr = some 1 ∧ (σ n).L.ret 0 ≠ none ∧
    (lrun empty (σ n).ops).read 1 = some [3] := by
  refine ⟨trace false readActs, 23, 5, trace_exec _ _, by unfold Small; decide +kernel, ?_, ?_, by decide +kernel, by decide +kernel,
    by decide +kernel, by decide +kernel, by decide +kernel⟩
  · exact reading_of (by decide) (by decide +kernel) (by decide +kernel)
  · exact calm_of (by decide +kernel)

/-- A suffix of length 10 is in slot 0.  A reader reads its length.  The slot gets a suffix of length 1 (in the old place), then one
of length 2 (at the end).  Then the reader reads the offset. -/
def tornActs : List Act :=
  [.call (.assign 0 [0, 0, 0, 0, 0, 0, 0, 0, 0, 0] 0 0) false, .write, .write,
   .enter 7, .start 7 0, .read 7, .read 7, .read 7,
   .call (.assign 0 [1] 0 0) false, .write, .write, .write, .write,
   .call (.assign 0 [2, 2] 0 0) false, .write, .write, .write, .write, .write, .write,
   .read 7, .read 7]

/-- **C54, the order of the two reads.** A reader that reads the length before the offset can run out of bounds and panic, if the slot
gets new suffixes meanwhile without having been cleared. -/
theorem C54_length_first_panics : ∃ (σ : Nat → St) (n : Nat), Exec true σ ∧ Small σ n ∧ (σ n).rd 7 = .panic 0 := by
  exact ⟨trace true tornActs, 22, trace_exec _ _, by unfold Small; decide +kernel, by decide +kernel⟩

/-- Check of `Fresh`. -/
def freshB (m : LMap) : List LOp → Bool
  | [] => true
  | o :: os => (match o with | .assign s _ _ _ => (m.suf s).isNone | _ => true) && freshB (Spec.Suffix.lstep m o) os

theorem fresh_of {m : LMap} {ops : List LOp} (h : freshB m ops = true) :
    ∀ pre s x c g post, ops = pre ++ .assign s x c g :: post → (lrun m pre).suf s = none := by
  induction ops generalizing m with
  | nil => intro pre s x c g post e; simp at e
  | cons o os ih =>
    intro pre s x c g post e
    simp only [freshB, Bool.and_eq_true] at h
    cases pre with
    | nil =>
      simp only [List.nil_append, List.cons.injEq] at e
      obtain ⟨rfl, rfl⟩ := e
      simpa [lrun] using h.1
    | cons q pre =>
      simp only [List.cons_append, List.cons.injEq] at e
      obtain ⟨rfl, rfl⟩ := e
      exact ih h.2 pre s x c g post rfl

/-- A reader has seen that slot 0 has a suffix.  The slot is cleared and given to another key.  The reader reads the length before the
new suffix is stored, and the offset afterwards. -/
def tornFreshActs : List Act :=
  [.call (.assign 0 [1, 2] 0 0) false, .write, .write,
   .enter 7, .start 7 0, .read 7,
   .call (.clear 0 100) false, .write, .write, .write,
   .read 7, .read 7,
   .call (.assign 0 [5] 0 0) true, .write, .write, .write, .write, .write,
   .read 7, .read 7, .read 7]

/-- **C54, witness.** The hypotheses of `C54_no_panic_partial` are met by a reader that reads the length first and is overtaken by a split
and an insert that use its slot again.  It returns a suffix that was never stored (its version check will fail), but does not
panic. -/
theorem C54_witness : ∃ (σ : Nat → St) (n : Nat), Exec true σ ∧ Small σ n ∧ Fresh (σ n).ops ∧ (σ n).rd 7 = .done 0 (some []) := by
  refine ⟨trace true tornFreshActs, 21, trace_exec _ _, by unfold Small; decide +kernel, ?_, by decide +kernel⟩
  exact fresh_of (m := empty) (by decide +kernel)

end Verif.BagRace
