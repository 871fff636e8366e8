import Verif.Proof.IndexShape
set_option linter.unusedSimpArgs false
set_option linter.unusedVariables false
/-! Every step of a thread keeps the shape of the index. -/
namespace Verif.Index
open Verif.Internode
variable {V : Type}

/-- What is known before a step of a thread at `c`; `O` and `B` speak of the other threads. -/
structure Pre (main : Bool) (s : Heap V) (c : Pc V) (O B : Nat → Prop) : Prop where
  H : HInv main s (fun n => O n ∨ right c n) (fun n => B n ∨ busy c n)
  K : ∀ n, n ∈ holds c → Al s n ∧ (s.node n).locked = true
  hO : ∀ n, O n → Al s n ∧ (s.node n).locked = true ∧ n ∉ holds c
  hB : ∀ n, B n → Al s n ∧ (s.node n).locked = true ∧ n ∉ holds c
  ok : PcOk main s c

/-- What is known after it. -/
structure Post (main : Bool) (s : Heap V) (c : Pc V) (O B : Nat → Prop) (s' : Heap V) (c' : Pc V) : Prop where
  L : Legal s c s' c'
  H : HInv main s' (fun n => O n ∨ right c' n) (fun n => B n ∨ busy c' n)
  ok : PcOk main s' c'

/-- Changes that do not touch the shape, except for the arrays of internodes in the middle of an insertion. -/
theorem HInv.congr' {main : Bool} {s s' : Heap V} {O B : Nat → Prop} (H : HInv main s O B) (hf : s'.fresh = s.fresh)
    (hr : s'.root = s.root) (ht : s'.top = s.top)
    (e : ∀ n, Al s n → (s'.node n).ht = (s.node n).ht ∧ (s'.node n).base = (s.node n).base ∧
      (s'.node n).parent = (s.node n).parent ∧ (s'.node n).next = (s.node n).next ∧ (s'.node n).rootf = (s.node n).rootf)
    (ha : ∀ n, Al s n → (s'.node n).arr = (s.node n).arr ∨ B n ∧ ∀ i, (s'.node n).arr.child i = 0 ∨
      Al s ((s'.node n).arr.child i) ∧ (s.node ((s'.node n).arr.child i)).ht + 1 = (s.node n).ht)
    (hs : ∀ n, Al s n → (s'.node n).splitting = true → (s'.node n).locked = true) : HInv main s' O B := by
  have A : ∀ n, Al s' n = Al s n := fun n => by simp only [Al, hf]
  have E := fun n h => (e n h)
  constructor
  · rw [A, ht]; exact H.topAl
  · rw [ht, (e _ H.topAl).2.2.1]; exact H.topPar
  · rw [ht, (e _ H.topAl).2.2.2.2]; exact H.topRoot
  · rw [ht]; exact H.topO
  · rw [A, hr]; exact H.rootAl
  · rw [ht, hr]; exact H.rootTop
  · intro n hn h0 i hi
    rw [A] at hn
    obtain ⟨e1, e2, e4, e5, e6⟩ := e n hn
    rw [e1] at h0; rw [e2] at hi
    obtain ⟨k1, k2, k3⟩ := H.kid n hn h0 i hi
    rw [e2, A]
    obtain ⟨g1, g2, g4, g5, g6⟩ := e _ k1
    rw [g4, g1, e1]
    exact ⟨k1, k2, k3⟩
  · intro n hn h0
    rw [A] at hn
    obtain ⟨e1, e2, e4, e5, e6⟩ := e n hn
    rw [e1] at h0; rw [e2]
    exact H.inj n hn h0
  · intro n hn
    rw [A] at hn
    rw [(e n hn).2.1]
    exact H.nk n hn
  · intro n hn h0
    rw [A] at hn
    obtain ⟨e1, e2, e4, e5, e6⟩ := e n hn
    rw [e4] at h0 ⊢
    obtain ⟨k1, k2, k3⟩ := H.par n hn h0
    rw [A, (e _ k1).1, (e _ k1).2.1]
    exact ⟨k1, k2, k3⟩
  · intro n hn i
    rw [A] at hn
    obtain ⟨e1, e2, e4, e5, e6⟩ := e n hn
    have key : (s'.node n).arr.child i = 0 ∨
        Al s ((s'.node n).arr.child i) ∧ (s.node ((s'.node n).arr.child i)).ht + 1 = (s.node n).ht := by
      rcases ha n hn with h | ⟨_, h⟩
      · rw [h]; exact H.cells n hn i
      · exact h i
    rcases key with h | ⟨h1, h2⟩
    · exact .inl h
    · right; rw [A, (e _ h1).1, e1]; exact ⟨h1, h2⟩
  · intro n hn
    rw [A] at hn
    obtain ⟨e1, e2, e4, e5, e6⟩ := e n hn
    rw [e5]
    rcases H.next n hn with h | ⟨h1, h2⟩
    · exact .inl h
    · right; rw [A, (e _ h1).1]; exact ⟨h1, h2⟩
  · intro n hn
    rw [A] at hn
    rw [(e n hn).2.2.1, ht]
    exact H.orph n hn
  · intro n hn
    rw [A] at hn
    intro hb
    rcases ha n hn with h | ⟨h, _⟩
    · rw [h, (e n hn).2.1]; exact H.same n hn hb
    · exact absurd h hb
  · intro n hn
    rw [A] at hn
    rw [(e n hn).1, ht, (e _ H.topAl).1]
    exact H.low n hn
  · intro n hn
    rw [A] at hn
    exact hs n hn

/-- Changes that do not touch the shape. -/
theorem HInv.congr {main : Bool} {s s' : Heap V} {O B : Nat → Prop} (H : HInv main s O B) (hf : s'.fresh = s.fresh)
    (hr : s'.root = s.root) (ht : s'.top = s.top)
    (e : ∀ n, Al s n → (s'.node n).ht = (s.node n).ht ∧ (s'.node n).base = (s.node n).base ∧ (s'.node n).arr = (s.node n).arr ∧
      (s'.node n).parent = (s.node n).parent ∧ (s'.node n).next = (s.node n).next ∧ (s'.node n).rootf = (s.node n).rootf)
    (hs : ∀ n, Al s n → (s'.node n).splitting = true → (s'.node n).locked = true) : HInv main s' O B :=
  H.congr' hf hr ht (fun n h => ⟨(e n h).1, (e n h).2.1, (e n h).2.2.2⟩) (fun n h => .inl (e n h).2.2.1) hs

section
variable {main : Bool} {s : Heap V} {O B : Nat → Prop}

/-- Steps of a thread that holds no lock and leaves the heap alone. -/
theorem Post.read {c c' : Pc V} (P : Pre main s c O B) (h : holds c = []) (h' : holds c' = []) (hr : ∀ n, ¬ right c n)
    (hr' : ∀ n, ¬ right c' n) (hb : ∀ n, ¬ busy c n) (hb' : ∀ n, ¬ busy c' n) (hok : PcOk main s c') : Post main s c O B s c' := by
  refine ⟨Legal.idle h h', ?_, hok⟩
  have H := P.H
  simp only [hr, hb, or_false] at H
  simp only [hr', hb', or_false]
  exact H

/-- The section of an insert that needs no split. -/
theorem Post.sect {o : Op V} {r l : Nat} {c' : Pc V} {E : List (Nat × V)} (P : Pre main s (.sect o r l) O B)
    (hl : (s.node l).locked = false) (h' : holds c' = []) (hr' : ∀ n, ¬ right c' n) (hb' : ∀ n, ¬ busy c' n)
    (f : Node V → Node V) (hf : f (s.node l) = ({ (s.node l).lock with ents := E } : Node V).unlock)
    (hok : ∀ s' : Heap V, s'.fresh = s.fresh → PcOk main s' c') : Post main s (.sect o r l) O B (s.mod l f) c' := by
  obtain ⟨h1, h2, h3, h4⟩ := P.ok
  have H := P.H
  simp only [right, busy, or_false] at H
  have hB : ¬ B l := fun hb => by have := (P.hB l hb).2.1; rw [hl] at this; cases this
  have hs : (s.node l).splitting = false := by
    cases e : (s.node l).splitting with
    | false => rfl
    | true => have := H.spl l h2 e; rw [hl] at this; cases this
  have hsm := H.same l h2 hB
  have e : ∀ n, ((s.mod l f).node n).ht = (s.node n).ht ∧ ((s.mod l f).node n).base = (s.node n).base ∧
      ((s.mod l f).node n).arr = (s.node n).arr ∧ ((s.mod l f).node n).parent = (s.node n).parent ∧
      ((s.mod l f).node n).next = (s.node n).next ∧ ((s.mod l f).node n).rootf = (s.node n).rootf ∧
      ((s.mod l f).node n).locked = (s.node n).locked ∧ ((s.mod l f).node n).splitting = (s.node n).splitting ∧
      ((s.mod l f).node n).lo = (s.node n).lo := by
    intro n
    rw [mod_node]
    by_cases c : n = l
    · subst c
      rw [if_pos rfl, hf]
      simp [Node.lock, hs, hsm, hl]
    · rw [if_neg c]; simp
  refine ⟨⟨Nat.le_refl _, fun n _ => (e n).1, fun n _ => (e n).2.2.2.2.2.2.2.2, ?_, fun n _ => .inl (e n).2.2.2.1, .inl rfl, ?_, ?_⟩, ?_, ?_⟩
  · intro n _ _ _
    exact ⟨(e n).2.2.2.2.2.2.1, (e n).2.2.2.2.2.2.2.1, (e n).2.2.1, (e n).2.1⟩
  · rw [h']; simp
  · intro n h1 h2
    right
    rw [(e n).2.2.2.2.2.2.1] at h2
    exact ⟨h1, h2, by simp [holds]⟩
  · simp only [hr', hb', or_false]
    refine H.congr rfl rfl rfl (fun n _ => ⟨(e n).1, (e n).2.1, (e n).2.2.1, (e n).2.2.2.1, (e n).2.2.2.2.1, (e n).2.2.2.2.2.1⟩) ?_
    intro n hn
    rw [(e n).2.2.2.2.2.2.2.1, (e n).2.2.2.2.2.2.1]
    exact H.spl n hn
  · exact hok _ rfl

/-- `lock` on the parent. -/
theorem Post.lck {c : Ctx V} {p : Nat} (P : Pre main s (.lck c p) O B) (hp : (s.node p).locked = false) :
    Post main s (.lck c p) O B (s.mod p Node.lock) (.rechk c p) := by
  obtain ⟨h1, h2, h3⟩ := P.ok
  have H := P.H
  simp only [right, busy, or_false] at H
  have hs : (s.node p).splitting = false := by
    cases e : (s.node p).splitting with
    | false => rfl
    | true => have := H.spl p h2 e; rw [hp] at this; cases this
  have hlp : c.l ≠ p := by intro e; rw [← e] at h3; omega
  have hyp : c.y ≠ p := by intro e; have := h1.ht; rw [e] at this; omega
  have e : ∀ n, ((s.mod p Node.lock).node n).ht = (s.node n).ht ∧ ((s.mod p Node.lock).node n).base = (s.node n).base ∧
      ((s.mod p Node.lock).node n).arr = (s.node n).arr ∧ ((s.mod p Node.lock).node n).parent = (s.node n).parent ∧
      ((s.mod p Node.lock).node n).next = (s.node n).next ∧ ((s.mod p Node.lock).node n).rootf = (s.node n).rootf ∧
      ((s.mod p Node.lock).node n).splitting = (s.node n).splitting ∧ ((s.mod p Node.lock).node n).lo = (s.node n).lo := by
    intro n
    rw [mod_node]
    by_cases c : n = p
    · subst c; rw [if_pos rfl]; simp [Node.lock]
    · rw [if_neg c]; simp
  have hk : ∀ n, ((s.mod p Node.lock).node n).locked = if n = p then true else (s.node n).locked := by
    intro n; rw [mod_node]; split <;> rfl
  refine ⟨⟨Nat.le_refl _, fun n _ => (e n).1, fun n _ => (e n).2.2.2.2.2.2.2, ?_, fun n _ => .inl (e n).2.2.2.1, .inl rfl, ?_, ?_⟩, ?_, ?_⟩
  · intro n _ hn hn'
    simp only [holds, List.mem_cons, List.not_mem_nil, or_false, not_or] at hn'
    refine ⟨?_, (e n).2.2.2.2.2.2.1, (e n).2.2.1, (e n).2.1⟩
    rw [hk, if_neg hn'.2.2]
  · intro n hn
    rw [hk]
    by_cases c1 : n = p
    · subst c1
      refine ⟨h2, by simp, .inr ?_⟩
      rw [hp]; simp
    · have : n ∈ holds (.lck c p : Pc V) := by
        simp only [holds, List.mem_cons, List.not_mem_nil, or_false] at hn ⊢
        rcases hn with h | h | h
        · exact .inl h
        · exact .inr h
        · exact absurd h c1
      rw [if_neg c1]
      exact ⟨(P.K n this).1, (P.K n this).2, .inl this⟩
  · intro n h5 h6
    rw [hk] at h6
    by_cases c1 : n = p
    · left; simp [holds, c1]
    · rw [if_neg c1] at h6
      by_cases c2 : n ∈ holds (.lck c p : Pc V)
      · left
        simp only [holds, List.mem_cons, List.not_mem_nil, or_false] at c2 ⊢
        rcases c2 with h | h
        · exact .inl h
        · exact .inr (.inl h)
      · exact .inr ⟨h5, h6, c2⟩
  · simp only [right, busy, or_false]
    refine H.congr rfl rfl rfl (fun n _ => ⟨(e n).1, (e n).2.1, (e n).2.2.1, (e n).2.2.2.1, (e n).2.2.2.2.1, (e n).2.2.2.2.2.1⟩) ?_
    intro n hn h
    rw [(e n).2.2.2.2.2.2.1] at h
    rw [hk]
    split
    · rfl
    · exact H.spl n hn h
  · refine ⟨⟨h1.al, h1.ay, h1.ar, h1.ne, ?_, ?_, ?_, ?_, h1.flags, h1.stale, h1.op⟩, h2, ?_, ?_⟩
    · rw [(e _).1, (e _).1]; exact h1.ht
    · rw [(e _).2.2.2.1]; exact h1.py
    · rw [(e _).2.2.2.2.2.2.1]; exact h1.sl
    · rw [(e _).2.2.2.2.2.2.1]; exact h1.sy
    · rw [(e _).1, (e _).1]; exact h3
    · rw [(e _).2.2.2.2.2.2.1]; exact hs

/-- The parent is unlocked again. -/
theorem Post.unlk {c c' : Ctx V} {p : Nat} (P : Pre main s (.rechk c p) O B) (hc : c' = { c with stale := 0 }) :
    Post main s (.rechk c p) O B (s.mod p Node.unlock) (.par c') := by
  obtain ⟨h1, h2, h3, hs⟩ := P.ok
  have H := P.H
  simp only [right, busy, or_false] at H
  have hlp : c.l ≠ p := by intro e; rw [← e] at h3; omega
  have hyp : c.y ≠ p := by intro e; have := h1.ht; rw [e] at this; omega
  have hB : ¬ B p := fun hb => (P.hB p hb).2.2 (by simp [holds])
  have hsm := H.same p h2 hB
  have e : ∀ n, ((s.mod p Node.unlock).node n).ht = (s.node n).ht ∧ ((s.mod p Node.unlock).node n).base = (s.node n).base ∧
      ((s.mod p Node.unlock).node n).arr = (s.node n).arr ∧ ((s.mod p Node.unlock).node n).parent = (s.node n).parent ∧
      ((s.mod p Node.unlock).node n).next = (s.node n).next ∧ ((s.mod p Node.unlock).node n).rootf = (s.node n).rootf ∧
      ((s.mod p Node.unlock).node n).splitting = (s.node n).splitting ∧ ((s.mod p Node.unlock).node n).lo = (s.node n).lo := by
    intro n
    rw [mod_node]
    by_cases c : n = p
    · subst c; rw [if_pos rfl]; simp [hs, hsm]
    · rw [if_neg c]; simp
  have hk : ∀ n, ((s.mod p Node.unlock).node n).locked = if n = p then false else (s.node n).locked := by
    intro n; rw [mod_node]; split <;> simp
  have hcl : c'.l = c.l := by rw [hc]
  have hcy : c'.y = c.y := by rw [hc]
  refine ⟨⟨Nat.le_refl _, fun n _ => (e n).1, fun n _ => (e n).2.2.2.2.2.2.2, ?_, fun n _ => .inl (e n).2.2.2.1, .inl rfl, ?_, ?_⟩, ?_, ?_⟩
  · intro n _ hn hn'
    simp only [holds, List.mem_cons, List.not_mem_nil, or_false, not_or] at hn
    refine ⟨?_, (e n).2.2.2.2.2.2.1, (e n).2.2.1, (e n).2.1⟩
    rw [hk, if_neg hn.2.2]
  · intro n hn
    simp only [holds, List.mem_cons, List.not_mem_nil, or_false, hcl, hcy] at hn
    rw [hk]
    have h' : n ∈ holds (.rechk c p : Pc V) := by
      simp only [holds, List.mem_cons, List.not_mem_nil, or_false]
      rcases hn with h | h
      · exact .inl h
      · exact .inr (.inl h)
    have hne : n ≠ p := by rcases hn with h | h <;> rw [h] <;> assumption
    rw [if_neg hne]
    exact ⟨(P.K n h').1, (P.K n h').2, .inl h'⟩
  · intro n h5 h6
    rw [hk] at h6
    by_cases c1 : n = p
    · rw [if_pos c1] at h6; cases h6
    · rw [if_neg c1] at h6
      by_cases c2 : n ∈ holds (.rechk c p : Pc V)
      · left
        simp only [holds, List.mem_cons, List.not_mem_nil, or_false, hcl, hcy] at c2 ⊢
        rcases c2 with h | h | h
        · exact .inl h
        · exact .inr h
        · exact absurd h c1
      · exact .inr ⟨h5, h6, c2⟩
  · simp only [right, busy, or_false, hcy]
    refine H.congr rfl rfl rfl (fun n _ => ⟨(e n).1, (e n).2.1, (e n).2.2.1, (e n).2.2.2.1, (e n).2.2.2.2.1, (e n).2.2.2.2.2.1⟩) ?_
    intro n hn h
    rw [(e n).2.2.2.2.2.2.1] at h
    rw [hk]
    split
    · rename_i c1; rw [c1, hs] at h; cases h
    · exact H.spl n hn h
  · subst hc
    refine ⟨h1.al, h1.ay, h1.ar, h1.ne, ?_, ?_, ?_, ?_, h1.flags, rfl, h1.op⟩
    · rw [(e _).1, (e _).1]; exact h1.ht
    · rw [(e _).2.2.2.1]; exact h1.py
    · rw [(e _).2.2.2.2.2.2.1]; exact h1.sl
    · rw [(e _).2.2.2.2.2.2.1]; exact h1.sy

end

end Verif.Index
