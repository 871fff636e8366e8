import Verif.Proof.IndexStep4
set_option linter.unusedSimpArgs false
set_option linter.unusedVariables false
/-! The shape of the index is kept by every step of the machine, except the one that runs out of rounds. -/
namespace Verif.Index
open Verif.Internode
variable {V : Type}

theorem right_holds {c : Pc V} {n : Nat} (h : right c n) : n ∈ holds c := by
  cases c <;> simp_all [right, holds]

theorem busy_holds {c : Pc V} {n : Nat} (h : busy c n) : n ∈ holds c := by
  cases c <;> simp_all [busy, holds]

theorem step_post {strict main : Bool} {s : Heap V} {c : Pc V} {O B : Nat → Prop} (P : Pre main s c O B) :
    (∃ x : Ctx V, c = .par x ∧ maxRounds ≤ x.rounds ∧ (step strict main s c).2 = .fail x.o .rounds) ∨
    Post main s c O B (step strict main s c).1 (step strict main s c).2 := by
  have H := P.H
  have ok := P.ok
  have R : ∀ c' : Pc V, holds c = [] → holds c' = [] → (∀ n, ¬ right c n) → (∀ n, ¬ right c' n) → (∀ n, ¬ busy c n) → (∀ n, ¬ busy c' n) →
      PcOk main s c' → Post main s c O B s c' := fun c' a b d e f g h => Post.read P a b d e f g h
  cases c with
  | idle => right; exact R _ rfl rfl (fun _ h => h) (fun _ h => h) (fun _ h => h) (fun _ h => h) trivial
  | climb o p =>
    right
    simp only [step]
    split
    · exact R _ rfl rfl (fun _ h => h) (fun _ h => h) (fun _ h => h) (fun _ h => h) ⟨ok, ok⟩
    · rename_i h0
      exact R _ rfl rfl (fun _ h => h) (fun _ h => h) (fun _ h => h) (fun _ h => h) (H.par p ok h0).1
  | stab o r p =>
    right
    simp only [step]
    split
    · exact R _ rfl rfl (fun _ h => h) (fun _ h => h) (fun _ h => h) (fun _ h => h) ok
    · split
      · rename_i h0
        cases o with
        | get t => exact R _ rfl rfl (fun _ h => h) (fun _ h => h) (fun _ h => h) (fun _ h => h) ⟨ok.2, h0⟩
        | insert t v => exact R _ rfl rfl (fun _ h => h) (fun _ h => h) (fun _ h => h) (fun _ h => h) ⟨ok.1, ok.2, h0, t, v, rfl⟩
      · rename_i h0
        exact R _ rfl rfl (fun _ h => h) (fun _ h => h) (fun _ h => h) (fun _ h => h) ⟨ok.1, ok.2, by omega⟩
  | nk o r p w => right; exact R _ rfl rfl (fun _ h => h) (fun _ h => h) (fun _ h => h) (fun _ h => h) ok
  | cmp o r p w a b =>
    right
    simp only [step]
    split
    · split
      · exact R _ rfl rfl (fun _ h => h) (fun _ h => h) (fun _ h => h) (fun _ h => h) ok
      · split
        · exact R _ rfl rfl (fun _ h => h) (fun _ h => h) (fun _ h => h) (fun _ h => h) ok
        · exact R _ rfl rfl (fun _ h => h) (fun _ h => h) (fun _ h => h) (fun _ h => h) ok
    · exact R _ rfl rfl (fun _ h => h) (fun _ h => h) (fun _ h => h) (fun _ h => h) ok
  | chld o r p w i =>
    right
    simp only [step]
    split
    · exact R _ rfl rfl (fun _ h => h) (fun _ h => h) (fun _ h => h) (fun _ h => h) ⟨ok.1, ok.1⟩
    · rename_i h0
      refine R _ rfl rfl (fun _ h => h) (fun _ h => h) (fun _ h => h) (fun _ h => h) ⟨ok.1, ok.2.1, ok.2.2, ?_⟩
      rcases H.cells p ok.2.1 i with h | h
      · exact absurd h h0
      · exact h.1
  | chk o r p w c =>
    right
    simp only [step]
    split
    · exact R _ rfl rfl (fun _ h => h) (fun _ h => h) (fun _ h => h) (fun _ h => h) ⟨ok.1, ok.2.1, ok.2.2.1⟩
    · exact R _ rfl rfl (fun _ h => h) (fun _ h => h) (fun _ h => h) (fun _ h => h) ⟨ok.1, ok.2.2.2⟩
  | chk2 o r p w =>
    right
    simp only [step]
    split
    · exact R _ rfl rfl (fun _ h => h) (fun _ h => h) (fun _ h => h) (fun _ h => h) ⟨ok.1, ok.1⟩
    · exact R _ rfl rfl (fun _ h => h) (fun _ h => h) (fun _ h => h) (fun _ h => h) ⟨ok.1, ok.2.1⟩
  | look o l =>
    right
    simp only [step]
    split
    · exact R _ rfl rfl (fun _ h => h) (fun _ h => h) (fun _ h => h) (fun _ h => h) ok
    · split
      · exact R _ rfl rfl (fun _ h => h) (fun _ h => h) (fun _ h => h) (fun _ h => h) trivial
      · exact R _ rfl rfl (fun _ h => h) (fun _ h => h) (fun _ h => h) (fun _ h => h) ok
  | nxt o l =>
    right
    simp only [step]
    split
    · rename_i h0
      refine R _ rfl rfl (fun _ h => h) (fun _ h => h) (fun _ h => h) (fun _ h => h) ?_
      rcases H.next l ok.1 with h | h
      · exact absurd h h0.1
      · exact h
    · exact R _ rfl rfl (fun _ h => h) (fun _ h => h) (fun _ h => h) (fun _ h => h) trivial
  | adv o r h l =>
    right
    cases h with
    | zero => exact R _ rfl rfl (fun _ h => h) (fun _ h => h) (fun _ h => h) (fun _ h => h) ok.1
    | succ h =>
      simp only [step]
      split
      · rename_i h0
        refine R _ rfl rfl (fun _ h => h) (fun _ h => h) (fun _ h => h) (fun _ h => h) ?_
        rcases H.next l ok.2.1 with h | h
        · exact absurd h h0.1
        · exact ⟨ok.1, h.1, h.2, ok.2.2.2⟩
      · exact R _ rfl rfl (fun _ h => h) (fun _ h => h) (fun _ h => h) (fun _ h => h) ok
  | sect o r l =>
    right
    obtain ⟨h1, h2, h3, t, v, rfl⟩ := ok
    simp only [step]
    split
    · exact R _ rfl rfl (fun _ h => h) (fun _ h => h) (fun _ h => h) (fun _ h => h) ⟨h1, h2, h3, t, v, rfl⟩
    · rename_i hl
      have hl : (s.node l).locked = false := by simpa using hl
      split
      · refine Post.sect (c' := .climb (.insert t v) r) (E := (s.node l).ents) P hl rfl (fun _ h => h) (fun _ h => h) (fun n => n.lock.unlock) rfl ?_
        intro s' hf; exact ⟨h1.1, by rw [hf]; exact h1.2⟩
      · split
        · rename_i old _
          exact Post.sect (c' := .done (.insert t v) (some old)) (E := put t v (s.node l).ents) P hl rfl (fun _ h => h) (fun _ h => h)
            (fun n => ({ n.lock with ents := put t v n.ents } : Node V).unlock) rfl (fun _ _ => trivial)
        · split
          · exact Post.sect (c' := .done (.insert t v) none) (E := put t v (s.node l).ents) P hl rfl (fun _ h => h) (fun _ h => h)
              (fun n => ({ n.lock with ents := put t v n.ents } : Node V).unlock) rfl (fun _ _ => trivial)
          · exact Post.leaf P hl _ rfl rfl rfl rfl rfl rfl rfl
  | par x =>
    have h1 : CtxOk main s x := ok
    by_cases hr : maxRounds ≤ x.rounds
    · left
      refine ⟨x, rfl, hr, ?_⟩
      simp only [step, if_pos hr]
    · right
      simp only [step, if_neg hr]
      by_cases h0 : (s.node x.l).parent = 0
      · rw [if_pos h0]
        have G := Post.grow P h0
        have htl : x.l = s.top := by
          rcases H.orph x.l h1.al h0 with h | h | h
          · exact h
          · exact absurd (by simp [holds]) (P.hO _ h).2.2
          · exact absurd h h1.ne
        have hf := h1.flags
        cases main with
        | true =>
          simp only [if_true] at hf
          rw [hf.1, hf.2 htl]
          simp only [Bool.false_eq_true, if_false, if_true]
          rw [if_pos (by rw [H.rootTop rfl, htl])]
          exact G
        | false =>
          simp only [Bool.false_eq_true, if_false] at hf
          rw [hf.2 htl]
          exact G
      · rw [if_neg h0]
        obtain ⟨m1, m2, k, m3, m4⟩ := H.par x.l h1.al h0
        have hk := (H.kid _ m1 m2 k m3).2.2
        rw [m4] at hk
        refine ⟨Legal.keep rfl P.K, P.H, ⟨h1.al, h1.ay, h1.ar, h1.ne, h1.ht, h1.py, h1.sl, h1.sy, h1.flags, h1.stale, h1.op⟩, m1, hk.symm⟩
  | lck x p =>
    right
    simp only [step]
    split
    · exact ⟨Legal.keep rfl P.K, P.H, ok⟩
    · rename_i h; exact Post.lck P (by simpa using h)
  | rechk x p =>
    right
    obtain ⟨h1, h2, h3, hs⟩ := ok
    have hB : ¬ B p := fun hb => (P.hB _ hb).2.2 (by simp [holds])
    have hbp := H.same p h2 (by intro h; rcases h with h | h; exact hB h; exact h)
    simp only [step]
    split
    · exact Post.unlk P rfl
    · rename_i h5
      have h5 : (s.node x.l).parent = p := by simpa using h5
      have h0 : (s.node x.l).parent ≠ 0 := by rw [h5]; have := h2.1; omega
      obtain ⟨m1, m2, k, m3, m4⟩ := H.par x.l h1.al h0
      rw [h5, ← hbp] at m3 m4
      split
      · rename_i hn
        exact absurd m4 (findChild_none hn k (by omega) (by omega))
      · rename_i idx hc
        obtain ⟨i1, i2, i3⟩ := findChild_some hc
        split
        · rename_i hlt
          refine ⟨Legal.keep rfl P.K, ?_, ⟨h1.al, h1.ay, h1.ar, h1.ne, h1.ht, h1.py, h1.sl, h1.sy, h1.flags, rfl, h1.op⟩, h2, h3, hs, h5, idx, [], ?_, ?_, ?_, ?_, hbp⟩
          · refine H.congr' rfl rfl rfl (fun n _ => ⟨rfl, rfl, rfl, rfl, rfl⟩) (fun _ _ => .inl rfl) H.spl |> fun K => ?_
            exact ⟨K.topAl, K.topPar, K.topRoot, K.topO, K.rootAl, K.rootTop, K.kid, K.inj, K.nk, K.par, K.cells, K.next, K.orph,
              fun n hn hb => K.same n hn (by intro h; rcases h with h | h; exact hb (.inl h); exact h), K.low, K.spl⟩
          · rw [← hbp]; omega
          · rw [← hbp]; exact hlt
          · rw [← hbp]; exact i3
          · rw [← hbp]; rfl
        · rename_i hfull
          exact Post.inode P h5 hc hfull _ rfl rfl rfl rfl rfl rfl rfl
  | ins x p todo =>
    right
    cases todo with
    | nil => exact Post.fin P
    | cons st todo => exact Post.store P
  | done o r => right; exact R _ rfl rfl (fun _ h => h) (fun _ h => h) (fun _ h => h) (fun _ h => h) trivial
  | fail o e => exact absurd ok id

/-- The machine. -/
structure Inv (main : Bool) (s : St V) : Prop where
  H : HInv main s.heap (fun n => ∃ i, right (s.pc i) n) (fun n => ∃ i, busy (s.pc i) n)
  ok : ∀ i, PcOk main s.heap (s.pc i)
  hold : ∀ i n, n ∈ holds (s.pc i) → Al s.heap n ∧ (s.heap.node n).locked = true
  held : ∀ n, Al s.heap n → (s.heap.node n).locked = true → ∃ i, n ∈ holds (s.pc i)
  excl : ∀ i j n, n ∈ holds (s.pc i) → n ∈ holds (s.pc j) → i = j

theorem init_inv (main : Bool) : Inv main (init : St V) := by
  have A : ∀ n, Al (init : St V).heap n ↔ n = 1 := by
    intro n; simp only [Al, init]; omega
  constructor
  · constructor <;> try simp only [A]
    · rfl
    · rfl
    · rfl
    · simp [init, right]
    · rfl
    · intro _; rfl
    · intro n _ h; simp [init] at h
    · intro n _ h; simp [init] at h
    · intro n _; simp [init, emptyArr]
    · intro n _ h; simp [init] at h
    · intro n _ i; left; rfl
    · intro n _; left; rfl
    · intro n h _; left; rw [h]; rfl
    · intro n _ _; rfl
    · intro n _; simp [init]
    · intro n _ h; simp [init] at h
  · intro i; trivial
  · intro i n h; simp [init, holds] at h
  · intro n _ h; simp [init] at h
  · intro i j n h; simp [init, holds] at h

/-- The view of one thread. -/
theorem Inv.pre {main : Bool} {s : St V} (I : Inv main s) (i : Nat) :
    Pre main s.heap (s.pc i) (fun n => ∃ j, j ≠ i ∧ right (s.pc j) n) (fun n => ∃ j, j ≠ i ∧ busy (s.pc j) n) := by
  have e : ∀ f : Pc V → Nat → Prop, (fun n => (∃ j, j ≠ i ∧ f (s.pc j) n) ∨ f (s.pc i) n) = fun n => ∃ j, f (s.pc j) n := by
    intro f
    funext n
    apply propext
    constructor
    · rintro (⟨j, _, h⟩ | h)
      · exact ⟨j, h⟩
      · exact ⟨i, h⟩
    · rintro ⟨j, h⟩
      by_cases c : j = i
      · right; rw [← c]; exact h
      · exact .inl ⟨j, c, h⟩
  refine ⟨?_, I.hold i, ?_, ?_, I.ok i⟩
  · rw [e right, e busy]; exact I.H
  · rintro n ⟨j, hj, h⟩
    obtain ⟨a, b⟩ := I.hold j n (right_holds h)
    exact ⟨a, b, fun h' => hj (I.excl j i n (right_holds h) h')⟩
  · rintro n ⟨j, hj, h⟩
    obtain ⟨a, b⟩ := I.hold j n (busy_holds h)
    exact ⟨a, b, fun h' => hj (I.excl j i n (busy_holds h) h')⟩

theorem Inv.post {main : Bool} {s : St V} (I : Inv main s) {i : Nat} {h' : Heap V} {c' : Pc V}
    (Q : Post main s.heap (s.pc i) (fun n => ∃ j, j ≠ i ∧ right (s.pc j) n) (fun n => ∃ j, j ≠ i ∧ busy (s.pc j) n) h' c') :
    Inv main ⟨h', upd s.pc i c'⟩ := by
  have pcj : ∀ j, j ≠ i → (upd s.pc i c') j = s.pc j := fun j h => upd_ne _ _ _ h
  have pci : (upd s.pc i c') i = c' := upd_same _ _ _
  have e : ∀ f : Pc V → Nat → Prop, (fun n => (∃ j, j ≠ i ∧ f (s.pc j) n) ∨ f c' n) = fun n => ∃ j, f ((upd s.pc i c') j) n := by
    intro f
    funext n
    apply propext
    constructor
    · rintro (⟨j, hj, h⟩ | h)
      · exact ⟨j, by rw [pcj j hj]; exact h⟩
      · exact ⟨i, by rw [pci]; exact h⟩
    · rintro ⟨j, h⟩
      by_cases c : j = i
      · right; rw [c, pci] at h; exact h
      · rw [pcj j c] at h; exact .inl ⟨j, c, h⟩
  have L := Q.L
  have nin : ∀ j n, j ≠ i → n ∈ holds (s.pc j) → n ∉ holds (s.pc i) ∧ n ∉ holds c' := by
    intro j n hj hn
    have a : n ∉ holds (s.pc i) := fun h => hj (I.excl j i n hn h)
    refine ⟨a, fun h => ?_⟩
    rcases (L.new n h).2.2 with g | g
    · exact a g
    · exact g (I.hold j n hn)
  refine ⟨?_, ?_, ?_, ?_, ?_⟩
  · have := Q.H
    rw [e right, e busy] at this
    exact this
  · intro j
    by_cases c : j = i
    · simp only [c, pci]; exact Q.ok
    · simp only [pcj j c]
      refine PcOk.frame L (fun n h => (I.hold i n h).1) ?_ (I.ok j)
      intro n hn
      exact ⟨(I.hold j n hn).1, (I.hold j n hn).2, (nin j n c hn).1⟩
  · intro j n hn
    by_cases c : j = i
    · simp only [c, pci] at hn
      exact ⟨(L.new n hn).1, (L.new n hn).2.1⟩
    · simp only [pcj j c] at hn
      obtain ⟨a, b⟩ := I.hold j n hn
      obtain ⟨n1, n2⟩ := nin j n c hn
      refine ⟨a.mono L.fresh, ?_⟩
      show (h'.node n).locked = true
      rw [(L.frame n a n1 n2).1]; exact b
  · intro n hn hk
    rcases L.old n hn hk with h | ⟨a, b, d⟩
    · exact ⟨i, by simp only [pci]; exact h⟩
    · obtain ⟨j, hj⟩ := I.held n a b
      have : j ≠ i := by intro e; rw [e] at hj; exact d hj
      exact ⟨j, by simp only [pcj j this]; exact hj⟩
  · intro j k n hj hk
    by_cases c : j = i <;> by_cases d : k = i
    · rw [c, d]
    · simp only [c, pci] at hj
      simp only [pcj k d] at hk
      exact absurd hj (nin k n d hk).2
    · simp only [d, pci] at hk
      simp only [pcj j c] at hj
      exact absurd hk (nin j n c hj).2
    · simp only [pcj j c] at hj
      simp only [pcj k d] at hk
      exact I.excl j k n hj hk

/-- A call does not touch the heap. -/
theorem Inv.call {main : Bool} {s : St V} (I : Inv main s) {i : Nat} (o : Op V) (hi : s.pc i = .idle ∨ ∃ a b, s.pc i = .done a b) :
    Inv main ⟨s.heap, upd s.pc i (.climb o s.heap.root)⟩ := by
  have P := I.pre i
  apply I.post
  have ⟨a, b, d⟩ : holds (s.pc i) = [] ∧ (∀ n, ¬ right (s.pc i) n) ∧ ∀ n, ¬ busy (s.pc i) n := by
    rcases hi with h | ⟨x, y, h⟩ <;> rw [h] <;> exact ⟨rfl, fun _ h => h, fun _ h => h⟩
  exact Post.read P a rfl b (fun _ h => h) d (fun _ h => h) I.H.rootAl

/-- Every step of the machine keeps the shape, except one that runs out of rounds. -/
theorem Inv.act {strict main : Bool} {s : St V} (I : Inv main s) (a : Act V) :
    (∃ i x, a = .run i ∧ s.pc i = .par x ∧ maxRounds ≤ x.rounds ∧ (act strict main s a).pc i = .fail x.o .rounds) ∨
    Inv main (act strict main s a) := by
  cases a with
  | call i o =>
    right
    simp only [Index.act]
    split
    · rename_i h; exact I.call o (.inl h)
    · rename_i h; exact I.call o (.inr ⟨_, _, h⟩)
    · exact I
  | run i =>
    rcases step_post (strict := strict) (I.pre i) with ⟨x, h1, h2, h3⟩ | h
    · left
      exact ⟨i, x, rfl, h1, h2, by simp only [Index.act, upd_same]; exact h3⟩
    · right; exact I.post h

end Verif.Index
