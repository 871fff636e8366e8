import Verif.Proof.IndexHeight
set_option linter.unusedSimpArgs false
set_option linter.unusedVariables false
/-!
A schedule that uses up the rounds of a split, part 1: runs of one thread beside a thread that stands still.

Thread 0 has split a leaf and waits to enter the new leaf into the index.  Thread 1 inserts ascending keys just below that leaf.
-/
namespace Verif.Index
open Verif.Internode
variable {V : Type}

/-- There are two threads, and keys are 64-bit words. -/
def Small : Act V → Prop
  | .call i o => i < 2 ∧ o.key < 2 ^ 64
  | .run i => i < 2

/-- A thread that is about to look whether an internode has changed finds it unlocked. -/
def passes (s : St V) : Act V → Bool
  | .call _ _ => true
  | .run i => match s.pc i with
    | .chk _ _ p _ _ => !(s.heap.node p).locked
    | _ => true

/-- The same for a list of actions. -/
def passL (s : St V) : List (Act V) → Bool
  | [] => true
  | a :: l => passes s a && passL (act false true s a) l

theorem passL_append : ∀ (l l' : List (Act V)) (s : St V), passL s (l ++ l') = (passL s l && passL (run false true s l) l')
  | [], _, _ => by simp [passL, run]
  | a :: l, l', s => by simp only [List.cons_append, passL, passL_append l l', run, List.foldl_cons, Bool.and_assoc]

/-- States that can be reached by two threads with 64-bit keys in the main tree. -/
inductive Rd : St V → Prop
  | init : Rd init
  | act {s : St V} (a : Act V) (ha : Small a) (hp : passes s a = true) (h : Rd s) : Rd (act false true s a)

theorem Rd.inv {s : St V} (h : Rd s) : (∀ i, ¬ Failed s i) → Inv true s ∧ Half s.heap := by
  induction h with
  | init => exact fun _ => ⟨init_inv true, by intro n _ h; simp [Index.init] at h⟩
  | @act s a ha _ _ ih =>
    intro hf
    have hn : ∀ j, ¬ Failed s j := fun j hj => hf j (failed_act hj _)
    obtain ⟨I, Hf⟩ := ih hn
    constructor
    · rcases I.act (strict := false) a with ⟨i, x, _, _, _, e⟩ | g
      · exact absurd ⟨_, _, e⟩ (hf i)
      · exact g
    · cases a with
      | call i o => simp only [Index.act]; split <;> exact Hf
      | run i =>
        refine step_half (I.pre i) Hf fun o e q => hf i ⟨o, e, ?_⟩
        simp only [Index.act, upd_same]; exact q

theorem Rd.list' {s : St V} (h : Rd s) : ∃ l : List (Act V), (∀ a ∈ l, Small a) ∧ Index.run false true Index.init l = s ∧ passL Index.init l = true := by
  induction h with
  | init => exact ⟨[], by simp, rfl, rfl⟩
  | act a ha hp _ ih =>
    obtain ⟨l, h1, h2, h3⟩ := ih
    refine ⟨l ++ [a], ?_, ?_, by rw [passL_append, h2, h3]; simp [passL, hp]⟩
    · intro b hb
      rcases List.mem_append.1 hb with hb | hb
      · exact h1 b hb
      · rw [List.mem_singleton.1 hb]; exact ha
    · subst h2; simp [Index.run, List.foldl_append]

theorem Rd.list {s : St V} (h : Rd s) : ∃ l : List (Act V), (∀ a ∈ l, Small a) ∧ Index.run false true Index.init l = s := by
  obtain ⟨l, h1, h2, _⟩ := h.list'
  exact ⟨l, h1, h2⟩

theorem Rd.run {s : St V} (h : Rd s) : ∀ l : List (Act V), (∀ a ∈ l, Small a) → passL s l = true → Rd (Index.run false true s l)
  | [], _, _ => h
  | a :: l, hl, hp => by
    simp only [passL, Bool.and_eq_true] at hp
    exact (Rd.act a (hl a (by simp)) hp.1 h).run l (fun b hb => hl b (by simp [hb])) hp.2

/-- As `passes`, for one thread. -/
def past (h : Heap V) : Pc V → Bool
  | .chk _ _ p _ _ => !(h.node p).locked
  | _ => true

/-- Thread 0 at `p0`, thread 1 at `c`, the others idle. -/
def two (p0 : Pc V) (h : Heap V) (c : Pc V) : St V := ⟨h, upd (upd (fun _ => .idle) 0 p0) 1 c⟩

@[simp] theorem two_heap (p0 : Pc V) (h : Heap V) (c : Pc V) : (two p0 h c).heap = h := rfl
@[simp] theorem two_pc0 (p0 : Pc V) (h : Heap V) (c : Pc V) : (two p0 h c).pc 0 = p0 := rfl
@[simp] theorem two_pc1 (p0 : Pc V) (h : Heap V) (c : Pc V) : (two p0 h c).pc 1 = c := rfl
theorem two_pc2 (p0 : Pc V) (h : Heap V) (c : Pc V) {i : Nat} (h0 : i ≠ 0) (h1 : i ≠ 1) : (two p0 h c).pc i = .idle := by
  simp [two, upd, h0, h1]

theorem Rd.to {p0 c c' : Pc V} {h h' : Heap V} (r : Rd (two p0 h c)) (e : step false true h c = (h', c')) (hp : past h c = true := by rfl) :
    Rd (two p0 h' c') := by
  have := Rd.act (.run 1) (Nat.le_refl 2) (by simp only [passes, two_pc1, two_heap]; exact hp) r
  simp only [Index.act, two_pc1, two_heap, e] at this
  have q : (two p0 h' c').pc = upd (two p0 h c).pc 1 c' := by
    funext i; simp only [two, upd]
    split <;> rfl
  rw [← q] at this
  exact this

theorem Rd.to0 {p0 p0' c : Pc V} {h h' : Heap V} (r : Rd (two p0 h c)) (e : step false true h p0 = (h', p0')) (hp : past h p0 = true := by rfl) :
    Rd (two p0' h' c) := by
  have := Rd.act (.run 0) (Nat.zero_lt_two) (by simp only [passes, two_pc0, two_heap]; exact hp) r
  simp only [Index.act, two_pc0, two_heap, e] at this
  have q : (two p0' h' c).pc = upd (two p0 h c).pc 0 p0' := by
    funext i; simp only [two, upd]
    by_cases e1 : i = 1
    · subst e1; rfl
    · by_cases e0 : i = 0
      · subst e0; rfl
      · simp [e0, e1]
  rw [← q] at this
  exact this

theorem Rd.call {p0 c : Pc V} {h : Heap V} (r : Rd (two p0 h c)) (hc : c = .idle ∨ ∃ a b, c = .done a b) (o : Op V) (ho : o.key < 2 ^ 64) :
    Rd (two p0 h (.climb o h.root)) := by
  have := Rd.act (.call 1 o) ⟨Nat.le_refl 2, ho⟩ rfl r
  have e : Index.act false true (two p0 h c) (.call 1 o) = two p0 h (.climb o h.root) := by
    have : (two p0 h (.climb o h.root)).pc = upd (two p0 h c).pc 1 (.climb o h.root) := by
      funext i; simp only [two, upd]; split <;> rfl
    rcases hc with rfl | ⟨a, b, rfl⟩ <;> simp only [Index.act, two_pc1] <;> rw [two_heap, ← this] <;> rfl
  rw [e] at this; exact this

/-- Thread 0 is between two rounds of `c`, whose node is a leaf. -/
structure Still (p0 : Pc V) (c : Ctx V) : Prop where
  pc : p0 = .par c ∨ ∃ q, p0 = .lck c q

theorem Still.nofail {p0 : Pc V} {c : Ctx V} (S : Still p0 c) (o : Op V) (e : Err) : p0 ≠ .fail o e := by
  rcases S.pc with rfl | ⟨q, rfl⟩ <;> simp

theorem Rd.inv2 {p0 c1 : Pc V} {c : Ctx V} {h : Heap V} (r : Rd (two p0 h c1)) (S : Still p0 c) (h1 : ∀ o e, c1 ≠ .fail o e) :
    Inv true (two p0 h c1) ∧ Half h := by
  apply r.inv
  rintro i ⟨o, e, q⟩
  by_cases e0 : i = 0
  · subst e0; exact S.nofail o e q
  · by_cases e1 : i = 1
    · subst e1; exact h1 o e q
    · rw [two_pc2 _ _ _ e0 e1] at q; cases q

theorem Still.ctx {p0 c1 : Pc V} {c : Ctx V} {h : Heap V} (S : Still p0 c) (I : Inv true (two p0 h c1)) : CtxOk true h c := by
  have := I.ok 0
  rcases S.pc with rfl | ⟨q, rfl⟩
  · exact this
  · exact this.1

theorem Still.holds {p0 : Pc V} {c : Ctx V} (S : Still p0 c) : holds p0 = [c.l, c.y] := by
  rcases S.pc with rfl | ⟨q, rfl⟩ <;> rfl
theorem Still.right {p0 : Pc V} {c : Ctx V} (S : Still p0 c) (n : Nat) : right p0 n ↔ n = c.y := by
  rcases S.pc with rfl | ⟨q, rfl⟩ <;> rfl
theorem Still.busy {p0 : Pc V} {c : Ctx V} (S : Still p0 c) (n : Nat) : ¬ busy p0 n := by
  rcases S.pc with rfl | ⟨q, rfl⟩ <;> exact id

/-- What is known of the heap while thread 1 holds the nodes `L`, of which `y` (if not 0) is new. -/
structure Hush (h : Heap V) (c : Ctx V) (L : List Nat) (y : Nat) : Prop where
  ctx : CtxOk true h c
  H : HInv true h (fun n => n = c.y ∨ n = y ∧ y ≠ 0) (fun _ => False)
  unl : ∀ n, Al h n → n ≠ c.l → n ≠ c.y → n ∉ L → (h.node n).locked = false
  half : Half h

theorem Rd.hush {p0 c1 : Pc V} {c : Ctx V} {h : Heap V} (r : Rd (two p0 h c1)) (S : Still p0 c) (h1 : ∀ o e, c1 ≠ .fail o e)
    {y : Nat} (hr : ∀ n, right c1 n ↔ n = y ∧ y ≠ 0) (hb : ∀ n, ¬ busy c1 n) : Hush h c (Index.holds c1) y := by
  obtain ⟨I, Hf⟩ := r.inv2 S h1
  refine ⟨S.ctx I, ?_, ?_, Hf⟩
  · have H := I.H
    have e1 : (fun n => ∃ i, right ((two p0 h c1).pc i) n) = fun n => n = c.y ∨ n = y ∧ y ≠ 0 := by
      funext n; apply propext
      constructor
      · rintro ⟨i, q⟩
        by_cases e0 : i = 0
        · subst e0; exact .inl ((S.right n).1 q)
        · by_cases e1 : i = 1
          · subst e1; exact .inr ((hr n).1 q)
          · rw [two_pc2 _ _ _ e0 e1] at q; exact q.elim
      · rintro (q | q)
        · exact ⟨0, (S.right n).2 q⟩
        · exact ⟨1, (hr n).2 q⟩
    have e2 : (fun n => ∃ i, busy ((two p0 h c1).pc i) n) = fun _ => False := by
      funext n; apply propext
      refine ⟨?_, False.elim⟩
      rintro ⟨i, q⟩
      by_cases e0 : i = 0
      · subst e0; exact S.busy n q
      · by_cases e1 : i = 1
        · subst e1; exact hb n q
        · rw [two_pc2 _ _ _ e0 e1] at q; exact q
    rw [e1, e2] at H
    exact H
  · intro n hn n1 n2 n3
    cases e : (h.node n).locked with
    | false => rfl
    | true =>
      obtain ⟨i, q⟩ := I.held n hn e
      by_cases e0 : i = 0
      · subst e0
        have q : n ∈ Index.holds p0 := q
        rw [S.holds] at q; simp [n1, n2] at q
      · by_cases e1 : i = 1
        · subst e1; exact absurd q n3
        · rw [two_pc2 _ _ _ e0 e1] at q; simp [Index.holds] at q

theorem Hush.nospl {h : Heap V} {c : Ctx V} {L : List Nat} {y n : Nat} (C : Hush h c L y) (hn : Al h n) (hu : (h.node n).locked = false) :
    (h.node n).splitting = false := by
  cases e : (h.node n).splitting with
  | false => rfl
  | true => rw [C.H.spl n hn e] at hu; cases hu

/-- Internodes are free. -/
theorem Hush.unl1 {h : Heap V} {c : Ctx V} {L : List Nat} {y n : Nat} (C : Hush h c L y) (h0 : (h.node c.l).ht = 0) (hn : Al h n)
    (hh : 0 < (h.node n).ht) (hL : n ∉ L) : (h.node n).locked = false := by
  refine C.unl n hn ?_ ?_ hL
  · rintro rfl; omega
  · rintro rfl; have := C.ctx.ht; omega

theorem Hush.arr {h : Heap V} {c : Ctx V} {L : List Nat} {y n : Nat} (C : Hush h c L y) (hn : Al h n) : (h.node n).arr = (h.node n).base :=
  C.H.same n hn id

/-- The chain of nodes from `x` to the root, in which each is the last child of the next, and all keys are below `T`. -/
def Up (T : Nat) (h : Heap V) : Nat → Nat → Prop
  | 0, x => (h.node x).parent = 0 ∧ h.root = x
  | d + 1, x => ∃ q, (h.node x).parent = q ∧ q ≠ 0 ∧ (h.node q).arr.child (h.node q).arr.nkeys = x ∧
      (∀ i, i < (h.node q).arr.nkeys → (h.node q).arr.ikey i < T) ∧ Up T h d q

theorem Up.mono {T T' : Nat} {h : Heap V} (hT : T ≤ T') : ∀ {d x : Nat}, Up T h d x → Up T' h d x
  | 0, _, u => u
  | d + 1, x, ⟨q, u1, u2, u3, u4, u5⟩ => ⟨q, u1, u2, u3, fun i hi => by have := u4 i hi; omega, Up.mono hT u5⟩

/-- The chain depends on the nodes above only. -/
theorem Up.congr {T : Nat} {h h' : Heap V} {O B : Nat → Prop} (H : HInv true h O B) (hr : h'.root = h.root) :
    ∀ {d x : Nat}, Al h x → (h'.node x).parent = (h.node x).parent →
      (∀ n, Al h n → (h.node x).ht < (h.node n).ht → (h'.node n).arr = (h.node n).arr ∧ (h'.node n).parent = (h.node n).parent) →
      Up T h d x → Up T h' d x
  | 0, x, hx, e, f, u => ⟨by rw [e]; exact u.1, by rw [hr]; exact u.2⟩
  | d + 1, x, hx, e, f, ⟨q, u1, u2, u3, u4, u5⟩ => by
    have hp := H.par x hx (by rw [u1]; exact u2)
    rw [u1] at hp
    obtain ⟨hq, hh, i, i1, i2⟩ := hp
    have hk := (H.kid q hq hh i i1).2.2
    rw [i2] at hk
    have fq := f q hq (by omega)
    refine ⟨q, by rw [e]; exact u1, u2, by rw [fq.1]; exact u3, by rw [fq.1]; exact u4, ?_⟩
    exact Up.congr H hr hq fq.2 (fun n hn hlt => f n hn (by omega)) u5

theorem Up.ht {T : Nat} {h : Heap V} {O B : Nat → Prop} (H : HInv true h O B) : ∀ {d x : Nat}, Al h x → Up T h d x →
    (h.node x).ht + d = (h.node h.root).ht
  | 0, x, hx, u => by rw [u.2]; rfl
  | d + 1, x, hx, ⟨q, u1, u2, u3, u4, u5⟩ => by
    have hp := H.par x hx (by rw [u1]; exact u2)
    rw [u1] at hp
    obtain ⟨hq, hh, i, i1, i2⟩ := hp
    have hk := (H.kid q hq hh i i1).2.2
    rw [i2] at hk
    have := Up.ht H hq u5
    omega

section reads
variable {p0 : Pc V} {c : Ctx V} {h : Heap V}

/-- The binary search ends at position `k`. -/
theorem Rd.search {o : Op V} {r q : Nat} {w : Nat × Nat} {k : Nat} (h1 : ∀ j, j < k → (h.node q).arr.ikey j < o.key)
    (h2 : ∀ j, k ≤ j → j < (h.node q).arr.nkeys → o.key < (h.node q).arr.ikey j) :
    ∀ (n a b : Nat), b - a ≤ n → a ≤ k → k ≤ b → b ≤ (h.node q).arr.nkeys → Rd (two p0 h (.cmp o r q w a b)) →
      Rd (two p0 h (.chld o r q w k))
  | n, a, b, hn, ha, hb, hbn, R => by
    by_cases hlt : a < b
    · cases n with
      | zero => omega
      | succ n =>
        by_cases c1 : (a + b) / 2 < k
        · have := h1 _ c1
          refine Rd.search h1 h2 n ((a + b) / 2 + 1) b (by omega) (by omega) hb hbn (R.to ?_)
          simp only [step]
          rw [if_pos hlt, if_neg (by omega), if_neg (by omega)]
        · have := h2 ((a + b) / 2) (by omega) (by omega)
          refine Rd.search h1 h2 n a ((a + b) / 2) (by omega) ha (by omega) (by omega) (R.to ?_)
          simp only [step]
          rw [if_pos hlt, if_pos (by omega)]
    · refine R.to ?_
      simp only [step]
      rw [if_neg hlt]
      have : a = k := by omega
      rw [this]

/-- A descent through a free internode. -/
theorem Rd.descend {o : Op V} {r q k : Nat} (hu : (h.node q).locked = false) (hs : (h.node q).splitting = false) (hh : 0 < (h.node q).ht)
    (hk : k ≤ (h.node q).arr.nkeys) (hc : (h.node q).arr.child k ≠ 0)
    (h1 : ∀ j, j < k → (h.node q).arr.ikey j < o.key) (h2 : ∀ j, k ≤ j → j < (h.node q).arr.nkeys → o.key < (h.node q).arr.ikey j)
    (R : Rd (two p0 h (.stab o r q))) : Rd (two p0 h (.stab o r ((h.node q).arr.child k))) := by
  have R1 : Rd (two p0 h (.nk o r q ((h.node q).vs, (h.node q).vi))) := R.to (by
    simp only [step, hu, Bool.false_eq_true, if_false]
    rw [if_neg (by omega)])
  have R2 : Rd (two p0 h (.cmp o r q ((h.node q).vs, (h.node q).vi) 0 (h.node q).arr.nkeys)) := R1.to rfl
  have R3 := Rd.search h1 h2 _ _ _ (Nat.le_refl _) (Nat.zero_le _) hk (Nat.le_refl _) R2
  have R4 : Rd (two p0 h (.chk o r q ((h.node q).vs, (h.node q).vi) ((h.node q).arr.child k))) := R3.to (by
    simp only [step]; rw [if_neg hc])
  refine R4.to ?_ (by simp [past, hu])
  simp [step, changed, hs]

/-- A descent along the chain. -/
theorem Rd.down {T : Nat} {o : Op V} (hT : T ≤ o.key) (C : Hush h c [] 0) (h0 : (h.node c.l).ht = 0) :
    ∀ {d x r : Nat}, Al h x → Up T h d x → Rd (two p0 h (.stab o r h.root)) → Rd (two p0 h (.stab o r x))
  | 0, x, r, hx, u, R => by rw [u.2] at R; exact R
  | d + 1, x, r, hx, ⟨q, u1, u2, u3, u4, u5⟩, R => by
    have hp := C.H.par x hx (by rw [u1]; exact u2)
    rw [u1] at hp
    obtain ⟨hq, hh, _⟩ := hp
    have R' := Rd.down hT C h0 hq u5 R
    have hu := C.unl1 h0 hq hh (by simp)
    have := Rd.descend (k := (h.node q).arr.nkeys) hu (C.nospl hq hu) hh (Nat.le_refl _) (by rw [u3]; have := hx.1; omega)
      (fun j hj => by have := u4 j hj; omega) (fun j h1 h2 => by omega) R'
    rw [u3] at this
    exact this

/-- `maybe_parent` ends at the root. -/
theorem Rd.climbs {o : Op V} (C : Hush h c [] 0) (h0 : (h.node c.l).ht = 0) :
    ∀ (n r : Nat), (h.node h.root).ht ≤ (h.node r).ht + n → Al h r → 0 < (h.node r).ht → Rd (two p0 h (.climb o r)) →
      Rd (two p0 h (.stab o h.root h.root))
  | n, r, hn, hr, hh, R => by
    have ht := C.H.rootTop rfl
    by_cases e : (h.node r).parent = 0
    · have hy : r ≠ c.y := by rintro rfl; have := C.ctx.ht; omega
      have : r = h.root := by
        rcases C.H.orph r hr e with q | q | q
        · rw [ht]; exact q
        · exact absurd q hy
        · exact absurd rfl q.2
      rw [← this]
      refine R.to ?_
      simp only [step]; rw [if_pos e]
    · obtain ⟨hq, hh', i, i1, i2⟩ := C.H.par r hr e
      have hk := (C.H.kid _ hq hh' i i1).2.2
      rw [i2] at hk
      have hlow := C.H.low _ hq
      rw [← ht] at hlow
      cases n with
      | zero => omega
      | succ n =>
        refine Rd.climbs C h0 n _ (by omega) hq hh' (R.to ?_)
        simp only [step]; rw [if_neg e]

end reads
end Verif.Index
