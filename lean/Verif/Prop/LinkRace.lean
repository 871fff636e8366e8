import Verif.Proof.LinkRace
set_option linter.unusedVariables false
/-!
# Threads linking new leaves: C36

Statements about the machine of `Model/LinkRace.lean`.  `Reach next a b` says that `b` can be reached from `a` through next
pointers.
-/
namespace Verif.LinkRace
open Verif.Link (mark unmark isMarked)

/-- A chain at rest: nobody links, no pointer of the chain is marked, next pointers stay in the chain and prev pointers
are their inverse. -/
structure Start (s : St) : Prop where
  idle : ∀ i, s.th i = .idle
  null : s.lnk 0#64 = false
  plain : ∀ b, s.lnk b = true → isMarked (s.next b) = false
  closed : ∀ b, s.lnk b = true → s.next b ≠ 0#64 → s.lnk (s.next b) = true ∧ s.prev (s.next b) = b

/-- An execution: a sequence of states, each a step from (or equal to) the one before. -/
structure Exec (σ : Nat → St) : Prop where
  start : Start (σ 0)
  step : ∀ n, Step (σ n) (σ (n + 1)) ∨ σ (n + 1) = σ n

theorem Start.inv {s : St} (h : Start s) : Inv s := by
  have hu : ∀ b, s.lnk b = true → unmark (s.next b) = s.next b := fun b hb => unmark_id (h.plain b hb)
  refine ⟨h.null, ?_, ?_, ?_, ?_, ?_, ?_, ?_⟩
  · intro b hb; rw [hu b hb]; exact fun hne => (h.closed b hb hne).1
  · intro b c hb hc; rw [hu b hb, hu c hc]; intro hne e
    rw [← (h.closed b hb hne).2, e]; exact (h.closed c hc (e ▸ hne)).2
  · intro i; rw [h.idle]; trivial
  · intro i j n e; rw [h.idle] at e; cases e
  · intro i j n e; rw [h.idle] at e; cases e
  · intro b hb hm; rw [h.plain b hb] at hm; cases hm
  · intro b hb _ hne; exact (h.closed b hb hne).2

theorem Exec.inv {σ : Nat → St} (h : Exec σ) (n : Nat) : Inv (σ n) := by
  induction n with
  | zero => exact h.start.inv
  | succ n ih =>
    rcases h.step n with st | e
    · exact ih.step st
    · rw [e]; exact ih

theorem lnk_mono {s s' : St} (st : Step s s') {b : A} (hb : s.lnk b = true) : s'.lnk b = true := by
  cases st with
  | start => exact hb
  | thread i =>
    unfold tstep
    split <;> try exact hb
    · split <;> exact hb
    · split <;> exact hb
    · split <;> exact hb
    · rename_i n _ _
      show upd s.lnk _ true b = true
      unfold upd; split
      · rfl
      · exact hb

theorem Exec.lnk {σ : Nat → St} (h : Exec σ) (n d : Nat) {b : A} (hb : (σ n).lnk b = true) : (σ (n + d)).lnk b = true := by
  induction d with
  | zero => exact hb
  | succ d ih =>
    rcases h.step (n + d) with st | e
    · exact lnk_mono st ih
    · rw [show n + (d + 1) = n + d + 1 from rfl, e]; exact ih

/-- C36: whatever was reachable from a leaf of the chain stays reachable from it, for ever, under any schedule. -/
theorem C36_reachable_stays {σ : Nat → St} (h : Exec σ) (n d : Nat) (a b : A) (ha : (σ n).lnk a = true)
    (hr : Reach (σ n).next a b) : Reach (σ (n + d)).next a b := by
  induction d with
  | zero => exact hr
  | succ d ih =>
    rcases h.step (n + d) with st | e
    · exact ((h.inv (n + d)).reach st (h.lnk n d ha) ih).2
    · rw [show n + (d + 1) = n + d + 1 from rfl, e]; exact ih

/-- C36: a linked sibling is reachable from its left neighbour, and from everything that reaches that one, from the
moment of its publication on; the old right neighbour follows it. -/
theorem C36_sibling_reachable {σ : Nat → St} (h : Exec σ) (n d i : Nat) (a b x : A)
    (hi : (σ n).th i = .publish a b x) (hs : σ (n + 1) = tstep (σ n) i) (c : A) (hc : (σ n).lnk c = true)
    (hr : Reach (σ n).next c a) :
    Reach (σ (n + 1 + d)).next c b ∧ (x ≠ 0#64 → Reach (σ (n + 1 + d)).next b x) := by
  have hok := (h.inv n).ok i
  rw [hi] at hok
  obtain ⟨h1, h2, h3, h4, h5, h6, h7, h8, h9, h10⟩ := hok
  have e : σ (n + 1) = { σ n with next := upd (σ n).next a b, th := upd (σ n).th i .idle, lnk := upd (σ n).lnk b true } := by
    rw [hs]; unfold tstep; rw [hi]
  have hst : Step (σ n) (σ (n + 1)) := by rw [hs]; exact .thread _ i
  have hba : b ≠ a := fun e' => by rw [e', h1] at h2; cases h2
  have hlc : (σ (n + 1)).lnk c = true := lnk_mono hst hc
  have hlb : (σ (n + 1)).lnk b = true := by rw [e]; exact updS _ _ _
  have r0 : Reach (σ (n + 1)).next c a := ((h.inv n).reach hst hc hr).2
  have e1 : unmark ((σ (n + 1)).next a) = b := by rw [e]; show unmark (upd _ a b a) = b; rw [updS, unmark_id h3]
  have e2 : unmark ((σ (n + 1)).next b) = x := by rw [e]; show unmark (upd _ a b b) = x; rw [updN _ _ hba, h9, unmark_id h5]
  refine ⟨C36_reachable_stays h (n + 1) d c b hlc ?_, fun hx => C36_reachable_stays h (n + 1) d b x hlb ?_⟩
  · rw [← e1]; exact .step r0 (by rw [e1]; exact h4)
  · rw [← e2]; exact .step .refl (by rw [e2]; exact hx)

/-- C36: a next pointer of the chain is marked exactly while one thread, and one only, is between marking it and
publishing a sibling through it. -/
theorem C36_mark_has_one_owner {σ : Nat → St} (h : Exec σ) (n : Nat) (a : A) (ha : (σ n).lnk a = true) :
    isMarked ((σ n).next a) = true ↔
      ∃ i, ((σ n).th i).owns? = some a ∧ ∀ j, ((σ n).th j).owns? = some a → j = i := by
  constructor
  · intro hm
    obtain ⟨i, e⟩ := (h.inv n).marked a ha hm
    exact ⟨i, e, fun j e' => (h.inv n).owner j i a e' e⟩
  · rintro ⟨i, e, _⟩
    exact (((h.inv n).ok i).own e).2.1

/-- Number of own steps a thread that holds a mark needs to clear it. -/
def Pc.rank : Pc → Nat
  | .prev .. => 4
  | .nxt .. => 3
  | .back .. => 2
  | .publish .. => 1
  | _ => 0

theorem tstep_other (s : St) {i j : Nat} (h : j ≠ i) : (tstep s i).th j = s.th j := by
  unfold tstep
  split <;> try rfl
  · split
    · rfl
    · exact updN _ _ h
  · split <;> exact updN _ _ h
  · exact updN _ _ h
  · exact updN _ _ h
  · split <;> exact updN _ _ h
  · exact updN _ _ h

/-- `who` says which thread made each step of a call; other steps begin a call or do nothing. -/
structure Sched (σ : Nat → St) (who : Nat → Option Nat) : Prop where
  call : ∀ n i, who n = some i → σ (n + 1) = tstep (σ n) i
  other : ∀ n, who n = none →
    (∃ i a b, (σ n).th i = .idle ∧ (σ (n + 1)).th = upd (σ n).th i (.load a b)) ∨ σ (n + 1) = σ n

/-- C36: the owner of a mark clears it by its fourth own step: none of its steps waits for another thread.  Between `n` and
`n + d` thread `i` makes at least four steps. -/
theorem C36_mark_cleared {σ : Nat → St} (h : Exec σ) (who : Nat → Option Nat) (hs : Sched σ who) (n d i : Nat) (a : A) (hi : ((σ n).th i).owns? = some a)
    (hd : 4 ≤ (List.range d).countP (fun k => who (n + k) = some i)) :
    ∃ k, k < d ∧ isMarked ((σ (n + k + 1)).next a) = false ∧ (σ (n + k + 1)).next a ≠ 0#64 ∧ (σ (n + k + 1)).th i = .idle := by
  have hw := hs.call
  have hw' : ∀ n, who n ≠ some i → ((σ n).th i).owns? = some a → (σ (n + 1)).th i = (σ n).th i := by
    intro n hne ho
    cases e : who n with
    | some j =>
      rw [hs.call n j e]
      exact tstep_other _ (fun e' => hne (by rw [e, e']))
    | none =>
      rcases hs.other n e with ⟨j, a', b', h1, h2⟩ | h1
      · rw [h2]
        refine updN _ _ (fun e' => ?_)
        rw [e', h1] at ho; cases ho
      · rw [h1]
  have main : ∀ d n, ((σ n).th i).owns? = some a →
      ((σ n).th i).rank ≤ (List.range d).countP (fun k => who (n + k) = some i) →
      ∃ k, k < d ∧ isMarked ((σ (n + k + 1)).next a) = false ∧ (σ (n + k + 1)).next a ≠ 0#64 ∧ (σ (n + k + 1)).th i = .idle := by
    intro d
    induction d with
    | zero =>
      intro n hi hr
      simp only [List.range_zero, List.countP_nil, Nat.le_zero_eq] at hr
      exfalso
      revert hi hr
      cases (σ n).th i <;> intro hi hr <;> first | (cases hi; done) | (cases hr; done)
    | succ d ih =>
      intro n hi hr
      rw [List.range_succ_eq_map, List.countP_cons, List.countP_map] at hr
      have hcomp : (fun k => decide (who (n + k) = some i)) ∘ Nat.succ = fun k => decide (who (n + 1 + k) = some i) := by
        funext k
        show decide (who (n + (k + 1)) = some i) = decide (who (n + 1 + k) = some i)
        rw [show n + (k + 1) = n + 1 + k from by omega]
      rw [hcomp] at hr
      by_cases hwn : who n = some i
      · have hs := hw n i hwn
        rw [if_pos (by simpa using hwn)] at hr
        have hok := (h.inv n).ok i
        cases hp : (σ n).th i with
        | idle => rw [hp] at hi; cases hi
        | load a n => rw [hp] at hi; cases hi
        | cas a n x => rw [hp] at hi; cases hi
        | prev a' b x =>
          rw [hp] at hi hr; cases hi
          have e : (σ (n + 1)).th i = .nxt a b x := by rw [hs]; unfold tstep; rw [hp]; exact updS _ _ _
          obtain ⟨k, h1, h2⟩ := ih (n + 1) (by rw [e]; rfl) (by rw [e]; simp only [Pc.rank] at hr ⊢; omega)
          exact ⟨k + 1, by omega, by rw [show n + (k + 1) + 1 = n + 1 + k + 1 from by omega]; exact h2⟩
        | nxt a' b x =>
          rw [hp] at hi hr; cases hi
          have e : (σ (n + 1)).th i = .back a b x := by rw [hs]; unfold tstep; rw [hp]; exact updS _ _ _
          obtain ⟨k, h1, h2⟩ := ih (n + 1) (by rw [e]; rfl) (by rw [e]; simp only [Pc.rank] at hr ⊢; omega)
          exact ⟨k + 1, by omega, by rw [show n + (k + 1) + 1 = n + 1 + k + 1 from by omega]; exact h2⟩
        | back a' b x =>
          rw [hp] at hi hr; cases hi
          have e : (σ (n + 1)).th i = .publish a b x := by
            rw [hs]; unfold tstep; rw [hp]
            show (if x = 0#64 then _ else _ : St).th i = _
            split <;> exact updS _ _ _
          obtain ⟨k, h1, h2⟩ := ih (n + 1) (by rw [e]; rfl) (by rw [e]; simp only [Pc.rank] at hr ⊢; omega)
          exact ⟨k + 1, by omega, by rw [show n + (k + 1) + 1 = n + 1 + k + 1 from by omega]; exact h2⟩
        | publish a' b x =>
          rw [hp] at hi hok; cases hi
          refine ⟨0, by omega, ?_⟩
          have e : (σ (n + 1)).next a = b ∧ (σ (n + 1)).th i = .idle := by
            rw [hs]; unfold tstep; rw [hp]; exact ⟨updS _ _ _, updS _ _ _⟩
          rw [show n + 0 + 1 = n + 1 from rfl, e.1]
          exact ⟨hok.2.2.1, hok.2.2.2.1, e.2⟩
      · rw [if_neg (by simpa using hwn)] at hr
        have e := hw' n hwn hi
        obtain ⟨k, h1, h2⟩ := ih (n + 1) (by rw [e]; exact hi) (by rw [e]; omega)
        exact ⟨k + 1, by omega, by rw [show n + (k + 1) + 1 = n + 1 + k + 1 from by omega]; exact h2⟩
  refine main d n hi (Nat.le_trans ?_ hd)
  cases (σ n).th i <;> simp [Pc.rank]

/-- C36: when no thread is linking, no pointer of the chain is marked and the chain is doubly linked. -/
theorem C36_quiet_chain {σ : Nat → St} (h : Exec σ) (n : Nat) (hq : ∀ i, ((σ n).th i).owns? = none) (a : A)
    (ha : (σ n).lnk a = true) :
    isMarked ((σ n).next a) = false ∧ ((σ n).next a ≠ 0#64 → (σ n).lnk ((σ n).next a) = true ∧ (σ n).prev ((σ n).next a) = a) := by
  have hm : isMarked ((σ n).next a) = false := by
    cases hm : isMarked ((σ n).next a) with
    | false => rfl
    | true =>
      obtain ⟨i, e⟩ := (h.inv n).marked a ha hm
      rw [hq i] at e; cases e
  refine ⟨hm, fun hne => ⟨?_, (h.inv n).back a ha hm hne⟩⟩
  have := (h.inv n).closed a ha (by rw [unmark_id hm]; exact hne)
  rw [unmark_id hm] at this; exact this

/-- C36: prev pointers are right wherever the next pointer is not marked, also while other threads are linking. -/
theorem C36_prev_of_next {σ : Nat → St} (h : Exec σ) (n : Nat) (a : A) (ha : (σ n).lnk a = true)
    (hm : isMarked ((σ n).next a) = false) (hne : (σ n).next a ≠ 0#64) : (σ n).prev ((σ n).next a) = a :=
  (h.inv n).back a ha hm hne

/-! ### A schedule -/

/-- One entry of a schedule. -/
inductive Act where
  | start (i : Nat) (a n : A)
  | thread (i : Nat)

/-- Effect of an entry. -/
def act (s : St) : Act → St
  | .start i a n => { s with th := upd s.th i (.load a n) }
  | .thread i => tstep s i

/-- State after the first `n` entries. -/
def trace (s : St) (as : List Act) (n : Nat) : St := (as.take n).foldl act s

/-- A chain of one leaf, at address 8. -/
def oneLeaf : St := { next := fun _ => 0#64, prev := fun _ => 0#64, th := fun _ => .idle, lnk := fun a => a == 8#64 }

theorem oneLeaf_start : Start oneLeaf :=
  ⟨fun _ => rfl, by decide, fun b _ => (by decide : isMarked 0#64 = false), fun b _ h => absurd rfl h⟩

/-- Two threads link to the right of the same leaf at the same time; the second finds the mark. -/
def race : List Act :=
  [.start 0 8#64 16#64, .start 1 8#64 24#64, .thread 0, .thread 1, .thread 0, .thread 1, .thread 1, .thread 0, .thread 0,
   .thread 1, .thread 0, .thread 0, .thread 1, .thread 1, .thread 1, .thread 1, .thread 1, .thread 1]

theorem race_exec : Exec (trace oneLeaf race) := by
  refine ⟨oneLeaf_start, fun n => ?_⟩
  unfold trace
  by_cases hn : n < race.length
  · rw [List.take_succ_eq_append_getElem hn, List.foldl_append]
    have hlen : race.length = 18 := rfl
    by_cases h2 : 2 ≤ n
    · left
      have : ∃ i, race[n] = .thread i := by
        have : ∀ k, (h : k < 18) → 2 ≤ k → ∃ i, race[k]'(by rw [hlen]; exact h) = .thread i := by
          intro k h h2
          have hk : k = 2 ∨ k = 3 ∨ k = 4 ∨ k = 5 ∨ k = 6 ∨ k = 7 ∨ k = 8 ∨ k = 9 ∨ k = 10 ∨ k = 11 ∨ k = 12 ∨ k = 13 ∨
            k = 14 ∨ k = 15 ∨ k = 16 ∨ k = 17 := by omega
          rcases hk with rfl | rfl | rfl | rfl | rfl | rfl | rfl | rfl | rfl | rfl | rfl | rfl | rfl | rfl | rfl | rfl <;>
            exact ⟨_, rfl⟩
        exact this n (by omega) h2
      obtain ⟨i, e⟩ := this
      rw [e]; exact .thread _ i
    · left
      have : n = 0 ∨ n = 1 := by omega
      rcases this with rfl | rfl
      · refine .start oneLeaf 0 8#64 16#64 rfl (by decide) (by decide) (by decide) (by decide) ?_
        intro j e; cases e
      · refine .start (trace oneLeaf race 1) 1 8#64 24#64 rfl (by decide) (by decide) (by decide) (by decide) ?_
        intro j e
        by_cases hj : j = 0
        · subst hj; exact absurd e (by decide)
        · rw [show (trace oneLeaf race 1).th j = .idle from updN _ _ hj] at e; cases e
  · rw [List.take_of_length_le (by omega), List.take_of_length_le (by omega)]; exact .inr rfl

/-- The hypotheses of the C36 theorems are met: while thread 0 holds the mark thread 1 tries and waits, and in the end the
chain is 8, 24, 16. -/
theorem C36_witness :
    let σ := trace oneLeaf race
    Exec σ ∧ ((σ 7).th 0).owns? = some 8#64 ∧ (σ 7).th 1 = .load 8#64 24#64 ∧ isMarked ((σ 7).next 8#64) = true ∧
    (∃ x, (σ 11).th 0 = .publish 8#64 16#64 x) ∧
    (σ 18).next 8#64 = 24#64 ∧ (σ 18).next 24#64 = 16#64 ∧ (σ 18).next 16#64 = 0#64 ∧ (σ 18).prev 16#64 = 24#64 ∧
    (∀ i, i < 2 → (σ 18).th i = .idle) := by
  refine ⟨race_exec, by decide, by decide, by decide, ⟨0#64, by decide⟩, by decide, by decide, by decide, by decide, by decide⟩

end Verif.LinkRace
