import Verif.Proof.IndexOrder5
set_option linter.unusedSimpArgs false
set_option linter.unusedVariables false
/-! Lookups in a heap that nobody changes, in which a new node may be missing from the index for ever. -/
namespace Verif.Index
open Verif.Internode
variable {V : Type}

/-- What lookups need to know. -/
structure Calmed (h : Heap V) : Prop where
  O : OInv h
  rootAl : Al h h.root
  topAl : Al h h.top
  par : ∀ c, Al h c → (h.node c).parent ≠ 0 → Al h (h.node c).parent ∧ (h.node (h.node c).parent).ht = (h.node c).ht + 1 ∧
    ∃ i, i ≤ (h.node (h.node c).parent).base.nkeys ∧ (h.node (h.node c).parent).base.child i = c
  kid : ∀ n, Al h n → 0 < (h.node n).ht → ∀ i, i ≤ (h.node n).arr.nkeys →
    Al h ((h.node n).arr.child i) ∧ (h.node ((h.node n).arr.child i)).ht + 1 = (h.node n).ht
  nk : ∀ n, Al h n → (h.node n).arr.nkeys ≤ inodeWidth
  low : ∀ n, Al h n → (h.node n).ht ≤ (h.node h.top).ht
  free : ∀ n, Al h n → (h.node n).locked = false ∧ (h.node n).splitting = false
  next : ∀ n, Al h n → (h.node n).next = 0 ∨ Al h (h.node n).next ∧ (h.node (h.node n).next).ht = 0
  same : ∀ n, Al h n → (h.node n).arr = (h.node n).base

/-- A thread that is not inside an insert, and not to the right of its key. -/
def Sees (h : Heap V) : Pc V → Prop
  | .idle => True
  | .done _ _ => True
  | .fail _ _ => True
  | .climb o p => (∃ t, o = .get t) ∧ Al h p ∧ (h.node p).lo = 0
  | .stab o r p => (∃ t, o = .get t) ∧ Al h r ∧ (h.node r).lo = 0 ∧ Al h p ∧ (h.node p).lo ≤ o.key
  | .nk o r p w => (∃ t, o = .get t) ∧ Al h r ∧ (h.node r).lo = 0 ∧ Al h p ∧ (h.node p).lo ≤ o.key ∧ 0 < (h.node p).ht ∧ w = ver (h.node p)
  | .cmp o r p w a b => (∃ t, o = .get t) ∧ Al h r ∧ (h.node r).lo = 0 ∧ Al h p ∧ (h.node p).lo ≤ o.key ∧ 0 < (h.node p).ht ∧ w = ver (h.node p) ∧
      a ≤ (h.node p).arr.nkeys ∧ b ≤ (h.node p).arr.nkeys ∧ ∀ j, j < a → (h.node p).arr.ikey j ≤ o.key
  | .chld o r p w i => (∃ t, o = .get t) ∧ Al h r ∧ (h.node r).lo = 0 ∧ Al h p ∧ (h.node p).lo ≤ o.key ∧ 0 < (h.node p).ht ∧ w = ver (h.node p) ∧
      i ≤ (h.node p).arr.nkeys ∧ ∀ j, j < i → (h.node p).arr.ikey j ≤ o.key
  | .chk o r p w c => (∃ t, o = .get t) ∧ Al h r ∧ (h.node r).lo = 0 ∧ Al h p ∧ Al h c ∧ (h.node c).lo ≤ o.key ∧ w = ver (h.node p) ∧
      (h.node c).ht + 1 = (h.node p).ht
  | .look o l => (∃ t, o = .get t) ∧ Al h l ∧ (h.node l).lo ≤ o.key ∧ (h.node l).ht = 0
  | .nxt o l => (∃ t, o = .get t) ∧ Al h l ∧ (h.node l).lo ≤ o.key ∧ (h.node l).ht = 0 ∧ lookup o.key (h.node l).ents = none
  | _ => False

/-- The key looked for. -/
def keyOf : Pc V → Nat
  | .climb o _ => o.key
  | .stab o _ _ => o.key
  | .nk o _ _ _ => o.key
  | .cmp o _ _ _ _ _ => o.key
  | .chld o _ _ _ _ => o.key
  | .chk o _ _ _ _ => o.key
  | .look o _ => o.key
  | .nxt o _ => o.key
  | _ => 0

/-- How far a lookup has to go. -/
def dist (h : Heap V) (c : Pc V) : Nat :=
  match c with
  | .climb _ p => (h.node h.top).ht * 40 + 2 * keyOf c + 6 + ((h.node h.top).ht - (h.node p).ht)
  | .stab _ _ p => (h.node p).ht * 40 + 2 * keyOf c + 5
  | .nk _ _ p _ => (h.node p).ht * 40 + 2 * keyOf c + 4
  | .cmp _ _ p _ a b => (h.node p).ht * 40 + 2 * keyOf c - 30 + (b - a)
  | .chld _ _ p _ _ => (h.node p).ht * 40 + 2 * keyOf c - 31
  | .chk _ _ p _ _ => (h.node p).ht * 40 + 2 * keyOf c - 32
  | .look _ l => 2 * (keyOf c - (h.node l).lo) + 4
  | .nxt _ l => 2 * (keyOf c - (h.node l).lo) + 3
  | _ => 0

/-- Inside a lookup for `t`. -/
def For (t : Nat) : Pc V → Prop
  | .climb o _ => o = .get t
  | .stab o _ _ => o = .get t
  | .nk o _ _ _ => o = .get t
  | .cmp o _ _ _ _ _ => o = .get t
  | .chld o _ _ _ _ => o = .get t
  | .chk o _ _ _ _ => o = .get t
  | .chk2 o _ _ _ => o = .get t
  | .look o _ => o = .get t
  | .nxt o _ => o = .get t
  | _ => False

/-- What a step leads to: an answer, or a state in which less is to do. -/
def Leads (h : Heap V) (c c' : Pc V) : Prop :=
  ∀ t, For t c → (For t c' ∧ dist h c' < dist h c) ∨ ∃ x, c' = .done (.get t) x ∧ ∀ v, x = some v ↔ Bound h t v

theorem Sees.step {strict main : Bool} {h : Heap V} {c : Pc V} (C : Calmed h) (S : Sees h c) :
    (step strict main h c).1 = h ∧ Sees h (step strict main h c).2 ∧ Leads h c (step strict main h c).2 := by
  have I := C.O
  cases c with
  | idle => exact ⟨rfl, trivial, fun t g => absurd g id⟩
  | done o x => exact ⟨rfl, trivial, fun t g => absurd g id⟩
  | fail o e => exact ⟨rfl, trivial, fun t g => absurd g id⟩
  | climb o p =>
    obtain ⟨S1, S2, S3⟩ := S
    have hlow := C.low p S2
    simp only [Index.step]
    split
    · refine ⟨by trivial, ⟨S1, S2, S3, S2, by rw [S3]; omega⟩, fun t g => .inl ⟨g, ?_⟩⟩
      simp only [dist, keyOf]; omega
    · rename_i h0
      obtain ⟨a, b, k, k1, k2⟩ := C.par p S2 h0
      have hlow' := C.low _ a
      refine ⟨by trivial, ⟨S1, a, ?_⟩, fun t g => .inl ⟨g, by simp only [dist, keyOf]; omega⟩⟩
      by_cases e : k = 0
      · have := I.fst _ a (by omega)
        rw [← e, k2, S3] at this; exact this.symm
      · have h1 := I.key _ a (by omega) (k - 1) (by omega)
        rw [show k - 1 + 1 = k by omega, k2, S3] at h1
        have := I.abv _ a (by omega) (k - 1) (by omega)
        omega
  | stab o r p =>
    obtain ⟨⟨t, rfl⟩, S2, S3, S4, S5⟩ := S
    simp only [Index.step, (C.free p S4).1, Bool.false_eq_true, if_false]
    split
    · rename_i h0
      refine ⟨by trivial, ⟨⟨t, rfl⟩, S4, S5, h0⟩, fun t' g => .inl ⟨g, ?_⟩⟩
      simp only [dist, keyOf]; omega
    · rename_i h0
      refine ⟨by trivial, ⟨⟨t, rfl⟩, S2, S3, S4, S5, by omega, rfl⟩, fun t' g => .inl ⟨g, ?_⟩⟩
      simp only [dist, keyOf]; omega
  | nk o r p w =>
    obtain ⟨S1, S2, S3, S4, S5, S6, S7⟩ := S
    have hn := C.nk p S4
    simp only [inodeWidth] at hn
    refine ⟨rfl, ⟨S1, S2, S3, S4, S5, S6, S7, by omega, Nat.le_refl _, by intro j hj; omega⟩, fun t g => .inl ⟨g, ?_⟩⟩
    simp only [dist, keyOf, Index.step]; omega
  | cmp o r p w a b =>
    obtain ⟨S1, S2, S3, S4, S5, S6, Sw, S7, S8, S9⟩ := S
    simp only [Index.step]
    split
    · split
      · refine ⟨by trivial, ⟨S1, S2, S3, S4, S5, S6, Sw, S7, by omega, S9⟩, fun t g => .inl ⟨g, ?_⟩⟩
        simp only [dist, keyOf]; omega
      · have asc : ∀ j, j < (a + b) / 2 + 1 → (h.node p).arr.ikey j ≤ (h.node p).arr.ikey ((a + b) / 2) := by
          intro j hj
          have e := C.same p S4
          by_cases q : j = (a + b) / 2
          · rw [q]; exact Nat.le_refl _
          · rw [e]; exact Nat.le_of_lt (I.srt p S4 S6 j _ (by omega) (by rw [← e]; omega))
        split
        · refine ⟨by trivial, ⟨S1, S2, S3, S4, S5, S6, Sw, by omega, fun j hj => by have := asc j hj; omega⟩, fun t g => .inl ⟨g, ?_⟩⟩
          simp only [dist, keyOf]; omega
        · refine ⟨by trivial, ⟨S1, S2, S3, S4, S5, S6, Sw, by omega, S8, fun j hj => by have := asc j hj; omega⟩, fun t g => .inl ⟨g, ?_⟩⟩
          simp only [dist, keyOf]; omega
    · refine ⟨by trivial, ⟨S1, S2, S3, S4, S5, S6, Sw, S7, S9⟩, fun t g => .inl ⟨g, ?_⟩⟩
      simp only [dist, keyOf]; omega
  | chld o r p w i =>
    obtain ⟨S1, S2, S3, S4, S5, S6, Sw, S7, S8⟩ := S
    obtain ⟨k1, k2⟩ := C.kid p S4 S6 i S7
    simp only [Index.step]
    rw [if_neg (by have := k1.1; omega)]
    refine ⟨by trivial, ⟨S1, S2, S3, S4, k1, ?_, Sw, k2⟩, fun t g => .inl ⟨g, by simp only [dist, keyOf]; omega⟩⟩
    rw [C.same p S4] at S7 S8 ⊢
    by_cases q : i = 0
    · rw [q, I.fst p S4 S6]; exact S5
    · have := I.key p S4 S6 (i - 1) (by omega)
      rw [show i - 1 + 1 = i by omega] at this
      rw [this]; exact S8 _ (by omega)
  | chk o r p w x =>
    obtain ⟨S1, S2, S3, S4, S6, S7, Sw, S8⟩ := S
    subst Sw
    simp only [Index.step]
    rw [if_neg (by simp [changed, ver, C.free p S4])]
    refine ⟨by trivial, ⟨S1, S2, S3, S6, S7⟩, fun t g => .inl ⟨g, ?_⟩⟩
    simp only [dist, keyOf]; omega
  | look o l =>
    obtain ⟨⟨t, rfl⟩, S2, S3, S4⟩ := S
    have key : (Op.get t : Op V).key = t := rfl
    simp only [Index.step, (C.free l S2).1, Bool.false_eq_true, if_false]
    rw [key] at S3 ⊢
    split
    · rename_i v g
      refine ⟨by trivial, trivial, fun t' f => .inr ⟨some v, ?_⟩⟩
      have f : (Op.get t : Op V) = .get t' := f
      cases f
      refine ⟨rfl, fun w => ⟨fun e => by cases e; exact ⟨l, S2, S4, lookup_mem g⟩, ?_⟩⟩
      rintro ⟨z, z1, z2, z3⟩
      have q1 : z = l := by
        rcases I.here S2 S4 S3 z1 z2 z3 with q | ⟨q1, q2⟩
        · exact q
        · have := I.sep l z S2 z1 S4 z2 q1 _ (lookup_mem g)
          simp only at this; omega
      subst q1
      rw [← g]; exact mem_lookup (I.asc z z1 z2) z3
    · rename_i g
      refine ⟨by trivial, ⟨⟨t, rfl⟩, S2, S3, S4, g⟩, fun t' f => .inl ⟨f, ?_⟩⟩
      simp only [dist, keyOf]; omega
  | nxt o l =>
    obtain ⟨⟨t, rfl⟩, S2, S3, S4, S5⟩ := S
    have key : (Op.get t : Op V).key = t := rfl
    simp only [Index.step]
    rw [key] at S3 S5 ⊢
    split
    · rename_i hn
      rcases C.next l S2 with g | g
      · exact absurd g hn.1
      · refine ⟨by trivial, ⟨⟨t, rfl⟩, g.1, hn.2, g.2⟩, fun t' f => .inl ⟨f, ?_⟩⟩
        have := I.nx' l S2 S4 hn.1
        simp only [dist, keyOf, key]; omega
    · rename_i hn
      refine ⟨by trivial, trivial, fun t' f => .inr ⟨none, ?_⟩⟩
      have f : (Op.get t : Op V) = .get t' := f
      cases f
      refine ⟨rfl, fun w => ⟨fun e => (by cases e), ?_⟩⟩
      rintro ⟨z, z1, z2, z3⟩
      exfalso
      rcases I.here S2 S4 S3 z1 z2 z3 with q | ⟨q1, q2⟩
      · subst q; exact lookup_none S5 _ z3 rfl
      · obtain ⟨g1, g2⟩ := I.nx l z S2 z1 S4 z2 q1
        exact hn ⟨g1, Nat.le_trans g2 q2⟩
  | chk2 o r p w => exact absurd S id
  | adv o r k l => exact absurd S id
  | sect o r l => exact absurd S id
  | par x => exact absurd S id
  | lck x p => exact absurd S id
  | rechk x p => exact absurd S id
  | ins x p todo => exact absurd S id

/-- The heap after a split has been given up, if no other thread is splitting. -/
theorem Calmed.of_full {main : Bool} {s : St V} (F : Full main s) {i : Nat} {x : Ctx V} (hx : s.pc i = .par x)
    (hq : ∀ j, j ≠ i → holds (s.pc j) = []) : Calmed ((s.heap.mod x.y Node.unlock).mod x.l Node.unlock) ∧
    ∀ t w, Bound ((s.heap.mod x.y Node.unlock).mod x.l Node.unlock) t w ↔ Bound s.heap t w := by
  have H := F.I.H
  have nb : ∀ n, ¬ ∃ j, busy (s.pc j) n := by
    rintro n ⟨j, hj⟩
    by_cases c : j = i
    · subst c; rw [hx] at hj; exact hj
    · have := busy_holds hj; rw [hq j c] at this; cases this
  have same : ∀ n, Al s.heap n → (s.heap.node n).arr = (s.heap.node n).base := fun n hn => H.same n hn (nb n)
  have e : ∀ n, (((s.heap.mod x.y Node.unlock).mod x.l Node.unlock).node n).ht = (s.heap.node n).ht ∧
      (((s.heap.mod x.y Node.unlock).mod x.l Node.unlock).node n).lo = (s.heap.node n).lo ∧
      (((s.heap.mod x.y Node.unlock).mod x.l Node.unlock).node n).ents = (s.heap.node n).ents ∧
      (((s.heap.mod x.y Node.unlock).mod x.l Node.unlock).node n).next = (s.heap.node n).next ∧
      (((s.heap.mod x.y Node.unlock).mod x.l Node.unlock).node n).arr = (s.heap.node n).arr ∧
      (((s.heap.mod x.y Node.unlock).mod x.l Node.unlock).node n).parent = (s.heap.node n).parent ∧
      (Al s.heap n → (((s.heap.mod x.y Node.unlock).mod x.l Node.unlock).node n).base = (s.heap.node n).base) := by
    intro n
    simp only [mod_node]
    by_cases c1 : n = x.l
    · subst c1
      by_cases c2 : x.l = x.y
      · simp [← c2]; exact same _
      · simp [c2]; exact same _
    · by_cases c2 : n = x.y
      · subst c2; simp [c1]; exact same _
      · simp [c1, c2]
  have K := OInv.congr (s' := (s.heap.mod x.y Node.unlock).mod x.l Node.unlock) H F.O rfl rfl rfl
    (fun n hn => ⟨(e n).1, (e n).2.1, (e n).2.2.1, (e n).2.2.2.1, fun _ => (e n).2.2.2.2.2.2 hn⟩)
  refine ⟨⟨K.1, H.rootAl, H.topAl, ?_, ?_, ?_, ?_, ?_, ?_, ?_⟩, K.2⟩
  · intro c hc hp
    have hc : Al s.heap c := hc
    obtain ⟨_, _, _, _, _, e6, _⟩ := e c
    rw [e6] at hp ⊢
    obtain ⟨a, b, k, k1, k2⟩ := H.par c hc hp
    have hk := (H.kid _ a b k k1).2.2
    rw [k2] at hk
    obtain ⟨e1, _, _, _, _, _, e7⟩ := e (s.heap.node c).parent
    exact ⟨a, by rw [e1, (e c).1]; omega, k, by rw [e7 a]; exact k1, by rw [e7 a]; exact k2⟩
  · intro n hn h0 k hk
    have hn : Al s.heap n := hn
    rw [(e n).1] at h0
    rw [(e n).2.2.2.2.1, same n hn] at hk ⊢
    obtain ⟨a, _, b⟩ := H.kid n hn h0 k hk
    exact ⟨a, by rw [(e _).1, (e n).1]; exact b⟩
  · intro n hn
    have hn : Al s.heap n := hn
    rw [(e n).2.2.2.2.1, same n hn]
    exact H.nk n hn
  · intro n hn
    have hn : Al s.heap n := hn
    rw [(e n).1, (e _).1]
    exact H.low n hn
  · intro n hn
    have hn : Al s.heap n := hn
    by_cases c1 : n = x.l
    · simp [mod_node, c1]
    · by_cases c2 : n = x.y
      · subst c2; simp [mod_node, c1]
      · simp only [mod_node, if_neg c1, if_neg c2]
        have hl : (s.heap.node n).locked = false := by
          cases hl : (s.heap.node n).locked with
          | false => rfl
          | true =>
            exfalso
            obtain ⟨j, hj⟩ := F.I.held n hn hl
            by_cases c : j = i
            · subst c; rw [hx] at hj; simp [holds, c1, c2] at hj
            · rw [hq j c] at hj; cases hj
        refine ⟨hl, ?_⟩
        cases hs : (s.heap.node n).splitting with
        | false => rfl
        | true => have := H.spl n hn hs; rw [hl] at this; cases this
  · intro n hn
    have hn : Al s.heap n := hn
    rw [(e n).2.2.2.1]
    rcases H.next n hn with g | g
    · exact .inl g
    · exact .inr ⟨g.1, by rw [(e _).1]; exact g.2⟩
  · intro n hn
    have hn : Al s.heap n := hn
    rw [(e n).2.2.2.2.1, (e n).2.2.2.2.2.2 hn]
    exact same n hn

section
variable {strict main : Bool} {σ : Nat → St V} {α : Nat → Act V}

/-- As long as no insert is called the heap stays, and lookups are answered from it. -/
theorem sees_exec (E : Exec strict main σ α) {n : Nat} (C : Calmed (σ n).heap) (S : ∀ j, Sees (σ n).heap ((σ n).pc j)) :
    ∀ d, (∀ m, n ≤ m → m < n + d → ∀ j t v, α m ≠ .call j (.insert t v)) →
      (σ (n + d)).heap = (σ n).heap ∧ ∀ j, Sees (σ n).heap ((σ (n + d)).pc j)
  | 0, _ => ⟨rfl, S⟩
  | d + 1, hi => by
    obtain ⟨h1, h2⟩ := sees_exec E C S d (fun m a b => hi m a (by omega))
    rw [← Nat.add_assoc, E.next]
    cases ha : α (n + d) with
    | call i o =>
      rcases act_call (strict := strict) (main := main) (σ (n + d)) i o with ⟨e, _, _⟩ | ⟨e, _⟩
      · rw [e]; exact ⟨h1, h2⟩
      · rw [e]
        refine ⟨h1, fun j => ?_⟩
        by_cases c : j = i
        · subst c
          simp only [upd_same, h1]
          refine ⟨?_, C.rootAl, C.O.rootLo⟩
          cases o with
          | get t => exact ⟨t, rfl⟩
          | insert t v => exact absurd ha (hi _ (by omega) (by omega) _ _ _)
        · simp only [upd_ne _ _ _ c]; exact h2 j
    | run i =>
      simp only [act, h1]
      obtain ⟨g1, g2, _⟩ := (h2 i).step (strict := strict) (main := main) C
      refine ⟨g1, fun j => ?_⟩
      by_cases c : j = i
      · subst c; simp only [upd_same]; exact g2
      · simp only [upd_ne _ _ _ c]; exact h2 j

/-- A lookup that is run again and again returns. -/
theorem sees_returns (E : Exec strict main σ α) {n : Nat} (C : Calmed (σ n).heap) (S : ∀ j, Sees (σ n).heap ((σ n).pc j))
    (hi : ∀ m, n ≤ m → ∀ j t v, α m ≠ .call j (.insert t v)) {j t : Nat} (hr : ∀ m, ∃ k, m ≤ k ∧ α k = .run j) :
    ∀ (N m : Nat), n ≤ m → For t ((σ m).pc j) → dist (σ n).heap ((σ m).pc j) < N →
      ∃ k x, m ≤ k ∧ α k = .run j ∧ (∀ q, m ≤ q → q ≤ k → For t ((σ q).pc j)) ∧ (σ (k + 1)).pc j = .done (.get t) x ∧
        ∀ v, x = some v ↔ Bound (σ n).heap t v := by
  have keep : ∀ m, n ≤ m → (σ m).heap = (σ n).heap ∧ ∀ j, Sees (σ n).heap ((σ m).pc j) := by
    intro m hm
    have := sees_exec E C S (m - n) (fun q a _ => hi q a)
    rw [show n + (m - n) = m by omega] at this
    exact this
  have one : ∀ m, n ≤ m → For t ((σ m).pc j) → α m ≠ .run j → (σ (m + 1)).pc j = (σ m).pc j := by
    intro m hm f hne
    rw [E.next]
    cases ha : α m with
    | call i o =>
      rcases act_call (strict := strict) (main := main) (σ m) i o with ⟨e, _, _⟩ | ⟨e, g⟩
      · rw [e]
      · rw [e]
        have : j ≠ i := by
          rintro rfl
          rcases g with g | ⟨a, b, g⟩ <;> rw [g] at f <;> exact f
        simp only [upd_ne _ _ _ this]
    | run i =>
      have : j ≠ i := by rintro rfl; exact hne ha
      simp only [act, upd_ne _ _ _ this]
  have wait : ∀ d m, n ≤ m → For t ((σ m).pc j) → α (m + d) = .run j →
      ∃ k, m ≤ k ∧ α k = .run j ∧ ∀ q, m ≤ q → q ≤ k → (σ q).pc j = (σ m).pc j := by
    intro d
    induction d with
    | zero => exact fun m hm f ha => ⟨m, Nat.le_refl _, ha, fun q a b => by rw [show q = m by omega]⟩
    | succ d ih =>
      intro m hm f ha
      by_cases c : α m = .run j
      · exact ⟨m, Nat.le_refl _, c, fun q a b => by rw [show q = m by omega]⟩
      · have e := one m hm f c
        obtain ⟨k, k1, k2, k3⟩ := ih (m + 1) (by omega) (by rw [e]; exact f) (by rw [← ha]; congr 1; omega)
        refine ⟨k, by omega, k2, fun q a b => ?_⟩
        rcases Nat.eq_or_lt_of_le a with a | a
        · rw [a]
        · rw [k3 q a b, e]
  intro N
  induction N with
  | zero =>
    intro m hm f hd
    omega
  | succ N ih =>
    intro m hm f hd
    obtain ⟨k0, a1, a2⟩ := hr m
    obtain ⟨k, k1, k2, k3⟩ := wait (k0 - m) m hm f (by rw [show m + (k0 - m) = k0 by omega]; exact a2)
    have ek := k3 k k1 (Nat.le_refl _)
    obtain ⟨e1, e2⟩ := keep k (by omega)
    have L := ((e2 j).step (strict := strict) (main := main) C).2.2 t (by rw [ek]; exact f)
    have e3 : (σ (k + 1)).pc j = (step strict main (σ n).heap ((σ k).pc j)).2 := by
      rw [E.next, k2]; simp only [act, upd_same, e1]
    rw [← e3] at L
    rcases L with ⟨L1, L2⟩ | ⟨x, L1, L2⟩
    · rw [ek] at L2
      obtain ⟨k', x, b1, b2, b3, b4, b5⟩ := ih (k + 1) (by omega) L1 (by omega)
      refine ⟨k', x, by omega, b2, fun q c1 c2 => ?_, b4, b5⟩
      rcases Nat.lt_or_ge k q with g | g
      · exact b3 q g c2
      · rw [k3 q c1 g]; exact f
    · exact ⟨k, x, k1, k2, fun q c1 c2 => by rw [k3 q c1 c2]; exact f, L1, L2⟩
end
end Verif.Index
