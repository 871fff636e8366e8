import Verif.Model.LinkRace
import Verif.Prop.Link
set_option linter.unusedVariables false
/-!
# Invariant of the linking threads
-/
namespace Verif.LinkRace
open Verif.Link (mark unmark isMarked)

/-- `b` can be reached from `a` through next pointers, the mark being ignored. -/
inductive Reach (next : A → A) (a : A) : A → Prop
  | refl : Reach next a a
  | step {b : A} : Reach next a b → unmark (next b) ≠ 0#64 → Reach next a (unmark (next b))

theorem Reach.trans {next : A → A} {a b c : A} (h1 : Reach next a b) (h2 : Reach next b c) : Reach next a c := by
  induction h2 with
  | refl => exact h1
  | step _ h ih => exact .step ih h

theorem updS {α β : Type} [DecidableEq α] (f : α → β) (a : α) (b : β) : upd f a b a = b := if_pos rfl
theorem updN {α β : Type} [DecidableEq α] (f : α → β) {a x : α} (b : β) (h : x ≠ a) : upd f a b x = f x := if_neg h

theorem even_of {p : A} (h : isMarked p = false) : Verif.Link.Even p := by
  rw [Verif.Link.even_iff, ← Verif.Link.isMarked_iff]; exact h
theorem unmark_mark {p : A} (h : isMarked p = false) : unmark (mark p) = p := (Verif.Link.C38_mark_roundtrip p (even_of h)).1
theorem isMarked_mark (p : A) : isMarked (mark p) = true := (Verif.Link.C38_mark_any p).2.2.2.2.1
theorem unmark_id {p : A} (h : isMarked p = false) : unmark p = p := (Verif.Link.C38_mark_roundtrip p (even_of h)).2.2.2.2.1
theorem isMarked_unmark (p : A) : isMarked (unmark p) = false := (Verif.Link.C38_mark_any p).2.2.2.2.2.1

/-- The thread has marked `a.next`. -/
def Pc.owns? : Pc → Option A
  | .prev a _ _ | .nxt a _ _ | .back a _ _ | .publish a _ _ => some a
  | _ => none

/-- What a thread's private data and its work so far satisfy. -/
def Pc.Ok (s : St) : Pc → Prop
  | .idle => True
  | .load a n => s.lnk a = true ∧ s.lnk n = false ∧ isMarked n = false ∧ n ≠ 0#64
  | .cas a n x => s.lnk a = true ∧ s.lnk n = false ∧ isMarked n = false ∧ n ≠ 0#64 ∧ isMarked x = false
  | .prev a n x =>
    s.lnk a = true ∧ s.lnk n = false ∧ isMarked n = false ∧ n ≠ 0#64 ∧ isMarked x = false ∧ s.next a = mark x ∧
      (x ≠ 0#64 → s.lnk x = true)
  | .nxt a n x =>
    s.lnk a = true ∧ s.lnk n = false ∧ isMarked n = false ∧ n ≠ 0#64 ∧ isMarked x = false ∧ s.next a = mark x ∧
      (x ≠ 0#64 → s.lnk x = true) ∧ s.prev n = a
  | .back a n x =>
    s.lnk a = true ∧ s.lnk n = false ∧ isMarked n = false ∧ n ≠ 0#64 ∧ isMarked x = false ∧ s.next a = mark x ∧
      (x ≠ 0#64 → s.lnk x = true) ∧ s.prev n = a ∧ s.next n = x
  | .publish a n x =>
    s.lnk a = true ∧ s.lnk n = false ∧ isMarked n = false ∧ n ≠ 0#64 ∧ isMarked x = false ∧ s.next a = mark x ∧
      (x ≠ 0#64 → s.lnk x = true) ∧ s.prev n = a ∧ s.next n = x ∧ (x ≠ 0#64 → s.prev x = n)

structure Inv (s : St) : Prop where
  null : s.lnk 0#64 = false
  closed : ∀ b, s.lnk b = true → unmark (s.next b) ≠ 0#64 → s.lnk (unmark (s.next b)) = true
  inj : ∀ b c, s.lnk b = true → s.lnk c = true → unmark (s.next b) ≠ 0#64 → unmark (s.next b) = unmark (s.next c) → b = c
  ok : ∀ i, (s.th i).Ok s
  new : ∀ i j n, (s.th i).new? = some n → (s.th j).new? = some n → i = j
  owner : ∀ i j a, (s.th i).owns? = some a → (s.th j).owns? = some a → i = j
  marked : ∀ b, s.lnk b = true → isMarked (s.next b) = true → ∃ i, (s.th i).owns? = some b
  back : ∀ b, s.lnk b = true → isMarked (s.next b) = false → s.next b ≠ 0#64 → s.prev (s.next b) = b

theorem Pc.Ok.congr {s s' : St} {c : Pc} (h : c.Ok s) (hl : ∀ b, s.lnk b = true → s'.lnk b = true)
    (hn : ∀ n, c.new? = some n → s'.lnk n = s.lnk n ∧ s'.next n = s.next n ∧ s'.prev n = s.prev n)
    (ha : ∀ a, c.owns? = some a → s'.next a = s.next a)
    (hx : ∀ a n x, c = .publish a n x → x ≠ 0#64 → s'.prev x = s.prev x) : c.Ok s' := by
  cases c with
  | idle => trivial
  | load a n =>
    obtain ⟨h1, h2, h3⟩ := h
    exact ⟨hl _ h1, (hn n rfl).1.trans h2, h3⟩
  | cas a n x =>
    obtain ⟨h1, h2, h3⟩ := h
    exact ⟨hl _ h1, (hn n rfl).1.trans h2, h3⟩
  | prev a n x =>
    obtain ⟨h1, h2, h3, h4, h5, h6, h7⟩ := h
    exact ⟨hl _ h1, (hn n rfl).1.trans h2, h3, h4, h5, (ha a rfl).trans h6, fun e => hl _ (h7 e)⟩
  | nxt a n x =>
    obtain ⟨h1, h2, h3, h4, h5, h6, h7, h8⟩ := h
    exact ⟨hl _ h1, (hn n rfl).1.trans h2, h3, h4, h5, (ha a rfl).trans h6, fun e => hl _ (h7 e), (hn n rfl).2.2.trans h8⟩
  | back a n x =>
    obtain ⟨h1, h2, h3, h4, h5, h6, h7, h8, h9⟩ := h
    exact ⟨hl _ h1, (hn n rfl).1.trans h2, h3, h4, h5, (ha a rfl).trans h6, fun e => hl _ (h7 e), (hn n rfl).2.2.trans h8,
      (hn n rfl).2.1.trans h9⟩
  | publish a n x =>
    obtain ⟨h1, h2, h3, h4, h5, h6, h7, h8, h9, h10⟩ := h
    exact ⟨hl _ h1, (hn n rfl).1.trans h2, h3, h4, h5, (ha a rfl).trans h6, fun e => hl _ (h7 e), (hn n rfl).2.2.trans h8,
      (hn n rfl).2.1.trans h9, fun e => (hx a n x rfl e).trans (h10 e)⟩

theorem Pc.Ok.new {s : St} {c : Pc} (h : c.Ok s) {n : A} (e : c.new? = some n) :
    s.lnk n = false ∧ isMarked n = false ∧ n ≠ 0#64 := by
  cases c <;> cases e <;> exact ⟨h.2.1, h.2.2.1, by first | exact h.2.2.2 | exact h.2.2.2.1⟩

theorem Pc.Ok.own {s : St} {c : Pc} (h : c.Ok s) {a : A} (e : c.owns? = some a) :
    s.lnk a = true ∧ isMarked (s.next a) = true ∧ ∃ n x, c.new? = some n ∧ isMarked x = false ∧ s.next a = mark x ∧
      (x ≠ 0#64 → s.lnk x = true) := by
  cases c <;> cases e
  case prev n x =>
    obtain ⟨h1, h2, h3, h4, h5, h6, h7⟩ := h
    exact ⟨h1, by rw [h6]; exact isMarked_mark x, n, x, rfl, h5, h6, h7⟩
  case nxt n x =>
    obtain ⟨h1, h2, h3, h4, h5, h6, h7, _⟩ := h
    exact ⟨h1, by rw [h6]; exact isMarked_mark x, n, x, rfl, h5, h6, h7⟩
  case back n x =>
    obtain ⟨h1, h2, h3, h4, h5, h6, h7, _⟩ := h
    exact ⟨h1, by rw [h6]; exact isMarked_mark x, n, x, rfl, h5, h6, h7⟩
  case publish n x =>
    obtain ⟨h1, h2, h3, h4, h5, h6, h7, _⟩ := h
    exact ⟨h1, by rw [h6]; exact isMarked_mark x, n, x, rfl, h5, h6, h7⟩

/-- Assemble the invariant after a step of thread `i` to program counter `c`. -/
theorem Inv.build {s s' : St} (h : Inv s) {i : Nat} {c : Pc} (hth : s'.th = upd s.th i c)
    (hnew : c.new? = (s.th i).new? ∨ c.new? = none) (hc : c.Ok s')
    (hok : ∀ j, j ≠ i → (s.th j).Ok s')
    (hown : ∀ j a, j ≠ i → (s.th j).owns? = some a → c.owns? ≠ some a)
    (null : s'.lnk 0#64 = false)
    (closed : ∀ b, s'.lnk b = true → unmark (s'.next b) ≠ 0#64 → s'.lnk (unmark (s'.next b)) = true)
    (inj : ∀ b c, s'.lnk b = true → s'.lnk c = true → unmark (s'.next b) ≠ 0#64 → unmark (s'.next b) = unmark (s'.next c) →
      b = c)
    (marked : ∀ b, s'.lnk b = true → isMarked (s'.next b) = true → c.owns? = some b ∨ ∃ j, j ≠ i ∧ (s.th j).owns? = some b)
    (back : ∀ b, s'.lnk b = true → isMarked (s'.next b) = false → s'.next b ≠ 0#64 → s'.prev (s'.next b) = b) : Inv s' := by
  have hi : s'.th i = c := by rw [hth, updS]
  have hj : ∀ j, j ≠ i → s'.th j = s.th j := fun j hj => by rw [hth, updN _ _ hj]
  refine ⟨null, closed, inj, ?_, ?_, ?_, ?_, back⟩
  · intro j
    by_cases e : j = i
    · subst e; rw [hi]; exact hc
    · rw [hj j e]; exact hok j e
  · have key : ∀ j n, (s'.th j).new? = some n → (s.th j).new? = some n := by
      intro j n e
      by_cases e' : j = i
      · subst e'; rw [hi] at e
        rcases hnew with hnew | hnew
        · rw [← hnew]; exact e
        · rw [hnew] at e; cases e
      · rw [hj j e'] at e; exact e
    intro a b n ha hb
    exact h.new a b n (key a n ha) (key b n hb)
  · intro a b x ha hb
    by_cases ea : a = i <;> by_cases eb : b = i
    · rw [ea, eb]
    · subst ea; rw [hi] at ha; rw [hj b eb] at hb; exact absurd ha (hown b x eb hb)
    · subst eb; rw [hi] at hb; rw [hj a ea] at ha; exact absurd hb (hown a x ea ha)
    · rw [hj a ea] at ha; rw [hj b eb] at hb; exact h.owner a b x ha hb
  · intro b hb hm
    rcases marked b hb hm with e | ⟨j, hj', e⟩
    · exact ⟨i, by rw [hi]; exact e⟩
    · exact ⟨j, by rw [hj j hj']; exact e⟩

/-- A thread moves without writing and without gaining or losing a mark. -/
theorem Inv.quiet {s : St} (h : Inv s) {i : Nat} {c : Pc} (hnew : c.new? = (s.th i).new?) (hc : c.Ok s)
    (hown : c.owns? = (s.th i).owns?) : Inv { s with th := upd s.th i c } := by
  have hcc : c.Ok { s with th := upd s.th i c } := hc.congr (fun _ e => e) (fun _ _ => ⟨rfl, rfl, rfl⟩) (fun _ _ => rfl) (fun _ _ _ _ _ => rfl)
  refine h.build (i := i) (c := c) rfl (.inl hnew) hcc ?_ ?_ h.null h.closed h.inj ?_ h.back
  · intro j hj
    exact (h.ok j).congr (fun _ e => e) (fun _ _ => ⟨rfl, rfl, rfl⟩) (fun _ _ => rfl) (fun _ _ _ _ _ => rfl)
  · intro j a hj e e'
    rw [hown] at e'
    exact hj (h.owner j i a e e')
  · intro b hb hm
    obtain ⟨j, e⟩ := h.marked b hb hm
    by_cases hj : j = i
    · subst hj; exact .inl (by rw [hown]; exact e)
    · exact .inr ⟨j, hj, e⟩

theorem Inv.tstep {s : St} (h : Inv s) (i : Nat) : Inv (tstep s i) := by
  have hok := h.ok i
  unfold LinkRace.tstep
  split <;> rename_i e <;> rw [e] at hok
  · exact h
  · -- load
    rename_i a n
    split
    · exact h
    · rename_i hm
      obtain ⟨h1, h2, h3, h4⟩ := hok
      exact h.quiet (by rw [e]; rfl) ⟨h1, h2, h3, h4, by simpa using hm⟩ (by rw [e]; rfl)
  · -- cas
    rename_i a n x
    obtain ⟨h1, h2, h3, h4, h5⟩ := hok
    split
    · rename_i hx
      have hun : unmark (mark x) = unmark (s.next a) := by rw [unmark_mark h5, hx, unmark_id h5]
      have hnb : ∀ b, unmark (upd s.next a (mark x) b) = unmark (s.next b) := by
        intro b
        by_cases eb : b = a
        · subst eb; rw [updS]; exact hun
        · rw [updN _ _ eb]
      have hnot : ∀ j b, (s.th j).owns? = some b → b ≠ a := by
        intro j b e' e''
        have := ((h.ok j).own e').2.1
        rw [e'', hx, h5] at this; cases this
      refine h.build (i := i) (c := .prev a n x) rfl (.inl (by rw [e]; rfl)) ?_ ?_ ?_ h.null ?_ ?_ ?_ ?_
      · refine ⟨h1, h2, h3, h4, h5, updS _ _ _, ?_⟩
        intro hx0
        have := h.closed a h1 (by rw [hx, unmark_id h5]; exact hx0)
        rw [hx, unmark_id h5] at this; exact this
      · intro j hj
        refine (h.ok j).congr (fun _ e => e) (fun n' e' => ⟨rfl, ?_, rfl⟩) (fun b e' => ?_) (fun _ _ _ _ _ => rfl)
        · exact updN _ _ (fun e'' => by rw [e'', ] at e'; have := ((h.ok j).new e').1; rw [h1] at this; cases this)
        · exact updN _ _ (hnot j b e')
      · intro j b hj e' e''; cases e''; exact hnot j _ e' rfl
      · intro b hb hne
        replace hne : unmark (upd s.next a (mark x) b) ≠ 0#64 := hne
        show s.lnk (unmark (upd s.next a (mark x) b)) = true
        rw [hnb] at hne ⊢; exact h.closed b hb hne
      · intro b c hb hc hne e'
        replace hne : unmark (upd s.next a (mark x) b) ≠ 0#64 := hne
        replace e' : unmark (upd s.next a (mark x) b) = unmark (upd s.next a (mark x) c) := e'
        rw [hnb] at hne; rw [hnb, hnb] at e'; exact h.inj b c hb hc hne e'
      · intro b hb hm
        by_cases eb : b = a
        · subst eb; exact .inl rfl
        · replace hm : isMarked (upd s.next a (mark x) b) = true := hm
          rw [updN _ _ eb] at hm
          obtain ⟨j, e'⟩ := h.marked b hb hm
          refine .inr ⟨j, fun ej => ?_, e'⟩
          rw [ej, e] at e'; cases e'
      · intro b hb hm hne
        replace hm : isMarked (upd s.next a (mark x) b) = false := hm
        replace hne : upd s.next a (mark x) b ≠ 0#64 := hne
        show s.prev (upd s.next a (mark x) b) = b
        by_cases eb : b = a
        · subst eb; rw [updS, isMarked_mark] at hm; cases hm
        · rw [updN _ _ eb] at hm hne ⊢; exact h.back b hb hm hne
    · exact h.quiet (by rw [e]; rfl) ⟨h1, h2, h3, h4⟩ (by rw [e]; rfl)
  · -- prev
    rename_i a n x
    obtain ⟨h1, h2, h3, h4, h5, h6, h7⟩ := hok
    refine h.build (i := i) (c := .nxt a n x) rfl (.inl (by rw [e]; rfl)) ⟨h1, h2, h3, h4, h5, h6, h7, updS _ _ _⟩ ?_ ?_ h.null
      h.closed h.inj ?_ ?_
    · intro j hj
      refine (h.ok j).congr (fun _ e => e) (fun n' e' => ⟨rfl, rfl, updN _ _ ?_⟩) (fun _ _ => rfl) (fun a' n' x' e' hx0 => updN _ _ ?_)
      · intro e''; subst e''; exact hj (h.new j i _ e' (by rw [e]; rfl))
      · intro e''
        have hj' := h.ok j
        rw [e'] at hj'
        have := hj'.2.2.2.2.2.2.1 hx0
        rw [e'', h2] at this; cases this
    · intro j b hj e' e''; exact hj (h.owner j i b e' (by rw [e]; exact e''))
    · intro b hb hm
      obtain ⟨j, e'⟩ := h.marked b hb hm
      by_cases hj : j = i
      · subst hj; rw [e] at e'; exact .inl e'
      · exact .inr ⟨j, hj, e'⟩
    · intro b hb hm hne
      show upd s.prev n a (s.next b) = b
      rw [updN]
      · exact h.back b hb hm hne
      · intro e'
        have := h.closed b hb (by rw [unmark_id hm]; exact hne)
        rw [unmark_id hm, e', h2] at this; cases this
  · -- nxt
    rename_i a n x
    obtain ⟨h1, h2, h3, h4, h5, h6, h7, h8⟩ := hok
    have hne : ∀ b, s.lnk b = true → b ≠ n := fun b hb e' => by rw [e', h2] at hb; cases hb
    have hnx : ∀ b, s.lnk b = true → upd s.next n x b = s.next b := fun b hb => updN _ _ (hne b hb)
    refine h.build (i := i) (c := .back a n x) rfl (.inl (by rw [e]; rfl))
      ⟨h1, h2, h3, h4, h5, (hnx a h1).trans h6, h7, h8, updS _ _ _⟩ ?_ ?_ h.null ?_ ?_ ?_ ?_
    · intro j hj
      refine (h.ok j).congr (fun _ e => e) (fun n' e' => ⟨rfl, updN _ _ ?_, rfl⟩) (fun b e' => hnx b ((h.ok j).own e').1) (fun _ _ _ _ _ => rfl)
      intro e''; subst e''; exact hj (h.new j i _ e' (by rw [e]; rfl))
    · intro j b hj e' e''; exact hj (h.owner j i b e' (by rw [e]; exact e''))
    · intro b hb
      show unmark (upd s.next n x b) ≠ _ → s.lnk (unmark (upd s.next n x b)) = true
      rw [hnx b hb]; exact h.closed b hb
    · intro b c hb hc
      show unmark (upd s.next n x b) ≠ _ → unmark (upd s.next n x b) = unmark (upd s.next n x c) → _
      rw [hnx b hb, hnx c hc]; exact h.inj b c hb hc
    · intro b hb
      show isMarked (upd s.next n x b) = true → _
      rw [hnx b hb]
      intro hm
      obtain ⟨j, e'⟩ := h.marked b hb hm
      by_cases hj : j = i
      · subst hj; rw [e] at e'; exact .inl e'
      · exact .inr ⟨j, hj, e'⟩
    · intro b hb
      show isMarked (upd s.next n x b) = false → upd s.next n x b ≠ _ → s.prev (upd s.next n x b) = _
      rw [hnx b hb]; exact h.back b hb
  · -- back
    rename_i a n x
    obtain ⟨h1, h2, h3, h4, h5, h6, h7, h8, h9⟩ := hok
    split
    · rename_i hx
      exact h.quiet (by rw [e]; rfl) ⟨h1, h2, h3, h4, h5, h6, h7, h8, h9, fun e' => absurd hx e'⟩ (by rw [e]; rfl)
    · rename_i hx
      have hxn : n ≠ x := fun e' => by have := h7 hx; rw [← e', h2] at this; cases this
      refine h.build (i := i) (c := .publish a n x) rfl (.inl (by rw [e]; rfl))
        ⟨h1, h2, h3, h4, h5, h6, h7, (updN _ _ hxn).trans h8, h9, fun _ => updS _ _ _⟩ ?_ ?_ h.null h.closed h.inj ?_ ?_
      · intro j hj
        refine (h.ok j).congr (fun _ e => e) (fun n' e' => ⟨rfl, rfl, updN _ _ ?_⟩) (fun _ _ => rfl) (fun a' n' x' e' hx0 => updN _ _ ?_)
        · intro e''
          have h10 := ((h.ok j).new e').1
          rw [e'', h7 hx] at h10; cases h10
        · intro e''; subst e''
          have hj' := h.ok j
          rw [e'] at hj'
          have haa : a' = a := h.inj a' a hj'.1 h1 (by rw [hj'.2.2.2.2.2.1, unmark_mark h5]; exact hx0)
            (by rw [hj'.2.2.2.2.2.1, h6])
          exact hj (h.owner j i a (by rw [e', haa]; rfl) (by rw [e]; rfl))
      · intro j b hj e' e''; exact hj (h.owner j i b e' (by rw [e]; exact e''))
      · intro b hb hm
        obtain ⟨j, e'⟩ := h.marked b hb hm
        by_cases hj : j = i
        · subst hj; rw [e] at e'; exact .inl e'
        · exact .inr ⟨j, hj, e'⟩
      · intro b hb hm hne
        show upd s.prev x n (s.next b) = b
        rw [updN]
        · exact h.back b hb hm hne
        · intro e'
          replace hm : isMarked (s.next b) = false := hm
          have hba : b = a := h.inj b a hb h1 (by rw [unmark_id hm]; exact hne) (by rw [unmark_id hm, e', h6, unmark_mark h5])
          rw [hba, h6, isMarked_mark] at hm; cases hm
  · -- publish
    rename_i a n x
    obtain ⟨h1, h2, h3, h4, h5, h6, h7, h8, h9, h10⟩ := hok
    have hna : n ≠ a := fun e' => by rw [e', h1] at h2; cases h2
    have hlnk : ∀ b, upd s.lnk n true b = true → b = n ∨ s.lnk b = true := by
      intro b hb
      by_cases eb : b = n
      · exact .inl eb
      · rw [updN _ _ eb] at hb; exact .inr hb
    have hle : ∀ b, s.lnk b = true → upd s.lnk n true b = true := by
      intro b hb
      by_cases eb : b = n
      · subst eb; exact updS _ _ _
      · rw [updN _ _ eb]; exact hb
    have hnn : upd s.next a n n = x := by rw [updN _ _ hna]; exact h9
    have hun : unmark (s.next a) = x := by rw [h6]; exact unmark_mark h5
    refine h.build (i := i) (c := .idle) rfl (.inr rfl) trivial ?_ ?_ ?_ ?_ ?_ ?_ ?_
    · intro j hj
      refine (h.ok j).congr hle (fun n' e' => ⟨updN _ _ ?_, updN _ _ ?_, rfl⟩) (fun b e' => updN _ _ ?_) (fun _ _ _ _ _ => rfl)
      · intro e''; subst e''; exact hj (h.new j i _ e' (by rw [e]; rfl))
      · intro e''; have h11 := ((h.ok j).new e').1; rw [e'', h1] at h11; cases h11
      · intro e''; subst e''; exact hj (h.owner j i _ e' (by rw [e]; rfl))
    · intro j b hj e' e''; cases e''
    · show upd s.lnk n true 0#64 = false
      rw [updN _ _ (Ne.symm h4)]; exact h.null
    · intro b hb hne
      replace hne : unmark (upd s.next a n b) ≠ 0#64 := hne
      show upd s.lnk n true (unmark (upd s.next a n b)) = true
      by_cases ea : b = a
      · subst ea; rw [updS, unmark_id h3]; exact updS _ _ _
      · rcases hlnk b hb with eb | hb
        · subst eb; rw [hnn, unmark_id h5] at hne ⊢; exact hle _ (h7 hne)
        · rw [updN _ _ ea] at hne ⊢; exact hle _ (h.closed b hb hne)
    · have hto : ∀ b, s.lnk b = true → unmark (s.next b) ≠ n := by
        intro b hb e'
        have := h.closed b hb (by rw [e']; exact h4)
        rw [e', h2] at this; cases this
      have hxs : ∀ b, s.lnk b = true → b ≠ a → unmark (s.next b) ≠ 0#64 → unmark (s.next b) ≠ x := by
        intro b hb hba hne e'
        exact hba (h.inj b a hb h1 hne (by rw [hun]; exact e'))
      have hnx : n ≠ x := by
        intro e'
        have hx0 : x ≠ 0#64 := e' ▸ h4
        have := h7 hx0
        rw [← e', h2] at this; cases this
      intro b c hb hc hne e'
      replace hne : unmark (upd s.next a n b) ≠ 0#64 := hne
      replace e' : unmark (upd s.next a n b) = unmark (upd s.next a n c) := e'
      by_cases eb : b = a
      · subst eb
        rw [updS, unmark_id h3] at e'
        by_cases ec : c = b
        · exact ec.symm
        · rw [updN _ _ ec] at e'
          rcases hlnk c hc with ec' | hc
          · subst ec'; rw [h9, unmark_id h5] at e'; exact absurd e' hnx
          · exact absurd e'.symm (hto c hc)
      · rw [updN _ _ eb] at e' hne
        by_cases ec : c = a
        · subst ec
          rw [updS, unmark_id h3] at e'
          rcases hlnk b hb with eb' | hb
          · subst eb'; rw [h9, unmark_id h5] at e'; exact absurd e'.symm hnx
          · exact absurd e' (hto b hb)
        · rw [updN _ _ ec] at e'
          rcases hlnk b hb with eb' | hb2 <;> rcases hlnk c hc with ec' | hc2
          · rw [eb', ec']
          · subst eb'; rw [h9, unmark_id h5] at e' hne
            exact absurd e'.symm (hxs c hc2 ec (e' ▸ hne))
          · subst ec'; rw [h9, unmark_id h5] at e'
            exact absurd e' (hxs b hb2 eb hne)
          · exact h.inj b c hb2 hc2 hne e'
    · intro b hb hm
      replace hm : isMarked (upd s.next a n b) = true := hm
      by_cases ea : b = a
      · subst ea; rw [updS, h3] at hm; cases hm
      · rw [updN _ _ ea] at hm
        rcases hlnk b hb with eb | hb
        · subst eb; rw [h9, h5] at hm; cases hm
        · obtain ⟨j, e'⟩ := h.marked b hb hm
          refine .inr ⟨j, fun ej => ?_, e'⟩
          rw [ej, e] at e'; cases e'; exact ea rfl
    · intro b hb hm hne
      replace hm : isMarked (upd s.next a n b) = false := hm
      replace hne : upd s.next a n b ≠ 0#64 := hne
      show s.prev (upd s.next a n b) = b
      by_cases ea : b = a
      · subst ea; rw [updS]; exact h8
      · rcases hlnk b hb with eb | hb
        · subst eb; rw [hnn] at hne ⊢; exact h10 hne
        · rw [updN _ _ ea] at hm hne ⊢; exact h.back b hb hm hne

theorem Inv.step {s s' : St} (h : Inv s) (st : Step s s') : Inv s' := by
  cases st with
  | thread i => exact h.tstep i
  | start i a n e h1 h2 h3 h4 h5 =>
    have hi : ∀ j, j ≠ i → upd s.th i (.load a n) j = s.th j := fun j hj => updN _ _ hj
    have hcong : ∀ j, (s.th j).Ok { s with th := upd s.th i (.load a n) } := fun j =>
      (h.ok j).congr (fun _ e => e) (fun _ _ => ⟨rfl, rfl, rfl⟩) (fun _ _ => rfl) (fun _ _ _ _ _ => rfl)
    refine ⟨h.null, h.closed, h.inj, ?_, ?_, ?_, ?_, h.back⟩
    · intro j
      show (upd s.th i (.load a n) j).Ok _
      by_cases ej : j = i
      · subst ej; rw [updS]; exact ⟨h1, h2, h3, h4⟩
      · rw [hi j ej]; exact hcong j
    · intro j k m
      show (upd s.th i (.load a n) j).new? = some m → (upd s.th i (.load a n) k).new? = some m → _
      by_cases ej : j = i <;> by_cases ek : k = i
      · intros; rw [ej, ek]
      · subst ej; rw [updS, hi k ek]; intro e1 e2; cases e1; exact absurd e2 (h5 k)
      · subst ek; rw [updS, hi j ej]; intro e1 e2; cases e2; exact absurd e1 (h5 j)
      · rw [hi j ej, hi k ek]; exact h.new j k m
    · intro j k b
      show (upd s.th i (.load a n) j).owns? = some b → (upd s.th i (.load a n) k).owns? = some b → _
      by_cases ej : j = i
      · subst ej; rw [updS]; intro e1; cases e1
      · by_cases ek : k = i
        · subst ek; rw [updS]; intro _ e1; cases e1
        · rw [hi j ej, hi k ek]; exact h.owner j k b
    · intro b hb hm
      obtain ⟨j, e'⟩ := h.marked b hb hm
      refine ⟨j, ?_⟩
      show (upd s.th i (.load a n) j).owns? = some b
      have ej : j ≠ i := fun ej => by rw [ej, e] at e'; cases e'
      rw [hi j ej]; exact e'

/-- Reachability from a leaf of the chain only grows. -/
theorem Inv.reach {s s' : St} (h : Inv s) (st : Step s s') {a b : A} (ha : s.lnk a = true) (hr : Reach s.next a b) :
    s.lnk b = true ∧ Reach s'.next a b := by
  have hl : ∀ b, Reach s.next a b → s.lnk b = true := by
    intro b hr
    induction hr with
    | refl => exact ha
    | step _ hne ih => exact h.closed _ ih hne
  refine ⟨hl b hr, ?_⟩
  -- one link of the old chain is a path in the new one
  have key : ∀ b, s.lnk b = true → unmark (s.next b) ≠ 0#64 → Reach s'.next b (unmark (s.next b)) := by
    intro b hb hne
    have same : s'.next b = s.next b → Reach s'.next b (unmark (s.next b)) := by
      intro e; rw [← e]; exact .step .refl (by rw [e]; exact hne)
    cases st with
    | start => exact same rfl
    | thread i =>
      have hok := h.ok i
      unfold LinkRace.tstep at same ⊢
      split at same <;> rename_i e <;> rw [e] at hok
      · exact same rfl
      · split at same <;> rename_i hc
        · rw [if_pos hc]; exact same rfl
        · rw [if_neg hc]; exact same rfl
      · rename_i a n x
        split at same <;> rename_i hc
        · rw [if_pos hc]
          by_cases eb : b = a
          · subst eb
            have h5 := hok.2.2.2.2
            have : unmark (upd s.next b (mark x) b) = unmark (s.next b) := by rw [updS, unmark_mark h5, hc, unmark_id h5]
            rw [← this]
            exact .step .refl (by rw [this]; exact hne)
          · exact same (updN _ _ eb)
        · rw [if_neg hc]; exact same rfl
      · exact same rfl
      · rename_i a n x
        exact same (updN _ _ (fun e' => by rw [e', hok.2.1] at hb; cases hb))
      · split at same <;> rename_i hc
        · rw [if_pos hc]; exact same rfl
        · rw [if_neg hc]; exact same rfl
      · rename_i a n x
        obtain ⟨h1, h2, h3, h4, h5, h6, h7, h8, h9, h10⟩ := hok
        by_cases eb : b = a
        · subst eb
          have hnb : n ≠ b := fun e' => by rw [e', hb] at h2; cases h2
          have e1 : unmark (upd s.next b n b) = n := by rw [updS, unmark_id h3]
          have e2 : unmark (upd s.next b n n) = x := by rw [updN _ _ hnb, h9, unmark_id h5]
          have e3 : unmark (s.next b) = x := by rw [h6, unmark_mark h5]
          rw [e3] at hne ⊢
          have r1 : Reach (upd s.next b n) b n := by
            have : Reach (upd s.next b n) b (unmark (upd s.next b n b)) := .step .refl (by rw [e1]; exact h4)
            rw [e1] at this; exact this
          have : Reach (upd s.next b n) b (unmark (upd s.next b n n)) := .step r1 (by rw [e2]; exact hne)
          rw [e2] at this; exact this
        · exact same (updN _ _ eb)
  induction hr with
  | refl => exact .refl
  | step hr' hne ih => exact ih.trans (key _ (hl _ hr') hne)

end Verif.LinkRace
