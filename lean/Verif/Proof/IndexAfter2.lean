import Verif.Proof.IndexAfter
set_option linter.unusedSimpArgs false
set_option linter.unusedVariables false
/-! Calls in a tree in which a new node may be missing from the index for ever, as long as no node has to be split. -/
namespace Verif.Index
open Verif.Internode
variable {V : Type}

/-- The second heap differs from the first at most in the entries and the versions of leaves. -/
structure Like (h h' : Heap V) : Prop where
  fresh : h'.fresh = h.fresh
  root : h'.root = h.root
  top : h'.top = h.top
  ht : ∀ n, (h'.node n).ht = (h.node n).ht
  lo : ∀ n, (h'.node n).lo = (h.node n).lo
  next : ∀ n, (h'.node n).next = (h.node n).next
  parent : ∀ n, (h'.node n).parent = (h.node n).parent
  arr : ∀ n, (h'.node n).arr = (h.node n).arr
  base : ∀ n, Al h n → (h'.node n).base = (h.node n).base
  ver : ∀ n, 0 < (h.node n).ht → ver (h'.node n) = ver (h.node n)
  free : ∀ n, (h'.node n).locked = (h.node n).locked ∧ (h'.node n).splitting = (h.node n).splitting

theorem Like.refl (h : Heap V) : Like h h :=
  ⟨rfl, rfl, rfl, fun _ => rfl, fun _ => rfl, fun _ => rfl, fun _ => rfl, fun _ => rfl, fun _ _ => rfl, fun _ _ => rfl, fun _ => ⟨rfl, rfl⟩⟩

theorem Like.al {h h' : Heap V} (L : Like h h') (n : Nat) : Al h' n = Al h n := by simp only [Al, L.fresh]

theorem Like.trans {a b c : Heap V} (L : Like a b) (M : Like b c) : Like a c :=
  ⟨M.fresh.trans L.fresh, M.root.trans L.root, M.top.trans L.top, fun n => (M.ht n).trans (L.ht n), fun n => (M.lo n).trans (L.lo n),
   fun n => (M.next n).trans (L.next n), fun n => (M.parent n).trans (L.parent n), fun n => (M.arr n).trans (L.arr n),
   fun n h => (M.base n (by rw [L.al]; exact h)).trans (L.base n h), fun n h => (M.ver n (by rw [L.ht]; exact h)).trans (L.ver n h),
   fun n => ⟨(M.free n).1.trans (L.free n).1, (M.free n).2.trans (L.free n).2⟩⟩

theorem Calmed.like {h h' : Heap V} (C : Calmed h) (L : Like h h') (I : OInv h') : Calmed h' := by
  refine ⟨I, ?_, ?_, ?_, ?_, ?_, ?_, ?_, ?_, ?_⟩
  · rw [L.al, L.root]; exact C.rootAl
  · rw [L.al, L.top]; exact C.topAl
  · intro c hc hp
    rw [L.al] at hc
    rw [L.parent] at hp ⊢
    obtain ⟨a, b, k, k1, k2⟩ := C.par c hc hp
    exact ⟨by rw [L.al]; exact a, by rw [L.ht, L.ht]; exact b, k, by rw [L.base _ a]; exact k1, by rw [L.base _ a]; exact k2⟩
  · intro n hn h0 i hi
    rw [L.al] at hn; rw [L.ht] at h0; rw [L.arr] at hi ⊢
    rw [L.al, L.ht, L.ht]; exact C.kid n hn h0 i hi
  · intro n hn; rw [L.al] at hn; rw [L.arr]; exact C.nk n hn
  · intro n hn; rw [L.al] at hn; rw [L.ht, L.ht, L.top]; exact C.low n hn
  · intro n hn; rw [L.al] at hn; rw [(L.free n).1, (L.free n).2]; exact C.free n hn
  · intro n hn; rw [L.al] at hn; rw [L.next, L.al, L.ht]; exact C.next n hn
  · intro n hn; rw [L.al] at hn; rw [L.arr, L.base n hn]; exact C.same n hn

/-- A thread that splits nothing and is not to the right of its key.  What it has read counts if the version is still the same. -/
def Goes (h : Heap V) : Pc V → Prop
  | .idle => True
  | .done _ _ => True
  | .fail _ _ => True
  | .climb o p => Al h p ∧ (h.node p).lo = 0
  | .stab o r p => Al h r ∧ (h.node r).lo = 0 ∧ Al h p ∧ (h.node p).lo ≤ o.key
  | .nk o r p w => Al h r ∧ (h.node r).lo = 0 ∧ Al h p ∧ (h.node p).lo ≤ o.key ∧ 0 < (h.node p).ht
  | .cmp o r p w a b => Al h r ∧ (h.node r).lo = 0 ∧ Al h p ∧ (h.node p).lo ≤ o.key ∧ 0 < (h.node p).ht ∧ (w = ver (h.node p) →
      a ≤ (h.node p).arr.nkeys ∧ b ≤ (h.node p).arr.nkeys ∧ ∀ j, j < a → (h.node p).arr.ikey j ≤ o.key)
  | .chld o r p w i => Al h r ∧ (h.node r).lo = 0 ∧ Al h p ∧ (h.node p).lo ≤ o.key ∧ 0 < (h.node p).ht ∧ (w = ver (h.node p) →
      i ≤ (h.node p).arr.nkeys ∧ ∀ j, j < i → (h.node p).arr.ikey j ≤ o.key)
  | .chk o r p w c => Al h r ∧ (h.node r).lo = 0 ∧ Al h p ∧ (h.node p).lo ≤ o.key ∧ 0 < (h.node p).ht ∧ (w = ver (h.node p) →
      Al h c ∧ (h.node c).lo ≤ o.key)
  | .chk2 o r p w => Al h r ∧ (h.node r).lo = 0 ∧ Al h p ∧ (h.node p).lo ≤ o.key ∧ 0 < (h.node p).ht
  | .look o l => (∃ t, o = .get t) ∧ Al h l ∧ (h.node l).lo ≤ o.key ∧ (h.node l).ht = 0
  | .nxt o l => (∃ t, o = .get t) ∧ Al h l ∧ (h.node l).lo ≤ o.key ∧ (h.node l).ht = 0
  | .adv o r _ l => (∃ t v, o = .insert t v) ∧ Al h r ∧ (h.node r).lo = 0 ∧ Al h l ∧ (h.node l).lo ≤ o.key ∧ (h.node l).ht = 0
  | .sect o r l => (∃ t v, o = .insert t v) ∧ Al h r ∧ (h.node r).lo = 0 ∧ Al h l ∧ (h.node l).lo ≤ o.key ∧ (h.node l).ht = 0
  | _ => False

/-- A thread that has read nothing old. -/
def Near (h : Heap V) : Pc V → Prop
  | .nk _ _ p w => 0 < (h.node p).ht ∧ w = ver (h.node p)
  | .cmp _ _ p w _ _ => 0 < (h.node p).ht ∧ w = ver (h.node p)
  | .chld _ _ p w _ => 0 < (h.node p).ht ∧ w = ver (h.node p)
  | .chk _ _ p w c => 0 < (h.node p).ht ∧ w = ver (h.node p) ∧ (h.node c).ht + 1 = (h.node p).ht
  | .chk2 _ _ _ _ => False
  | _ => True

theorem Near.like {h h' : Heap V} {c : Pc V} (L : Like h h') (G : Near h c) : Near h' c := by
  cases c with
  | nk o r p w => have := L.ver p G.1; simp only [Near, L.ht, this] at G ⊢; exact G
  | cmp o r p w a b => have := L.ver p G.1; simp only [Near, L.ht, this] at G ⊢; exact G
  | chld o r p w i => have := L.ver p G.1; simp only [Near, L.ht, this] at G ⊢; exact G
  | chk o r p w x => have := L.ver p G.1; simp only [Near, L.ht, this] at G ⊢; exact G
  | chk2 o r p w => exact G
  | _ => trivial

theorem Like.near' {h h' : Heap V} {c : Pc V} (L : Like h h') (G : Near h' c) : Near h c := by
  cases c with
  | nk o r p w => have := L.ver p (by have := G.1; rw [L.ht] at this; exact this); simp only [Near, L.ht, this] at G ⊢; exact G
  | cmp o r p w a b => have := L.ver p (by have := G.1; rw [L.ht] at this; exact this); simp only [Near, L.ht, this] at G ⊢; exact G
  | chld o r p w i => have := L.ver p (by have := G.1; rw [L.ht] at this; exact this); simp only [Near, L.ht, this] at G ⊢; exact G
  | chk o r p w x => have := L.ver p (by have := G.1; rw [L.ht] at this; exact this); simp only [Near, L.ht, this] at G ⊢; exact G
  | chk2 o r p w => exact G
  | _ => trivial

theorem Goes.like {h h' : Heap V} {c : Pc V} (L : Like h h') (G : Goes h c) : Goes h' c := by
  cases c with
  | cmp o r p w a b =>
    have := L.ver p G.2.2.2.2.1
    simp only [Goes, L.al, L.lo, L.ht, L.arr, this] at G ⊢; exact G
  | chld o r p w i =>
    have := L.ver p G.2.2.2.2.1
    simp only [Goes, L.al, L.lo, L.ht, L.arr, this] at G ⊢; exact G
  | chk o r p w x =>
    have := L.ver p G.2.2.2.2.1
    simp only [Goes, L.al, L.lo, L.ht, L.arr, this] at G ⊢; exact G
  | _ => simp only [Goes, L.al, L.lo, L.ht, L.arr] at G ⊢ <;> exact G

theorem Goes.holds {h : Heap V} {c : Pc V} (G : Goes h c) : holds c = [] := by
  cases c <;> first | rfl | exact absurd G id

theorem dist_like {h h' : Heap V} (L : Like h h') (c : Pc V) : dist h' c = dist h c := by
  cases c <;> simp only [dist, L.ht, L.lo, L.top]

/-- The key, if the call is an insert. -/
def insKey : Op V → Option Nat
  | .insert t _ => some t
  | .get _ => none

/-- The key of the insert that is under way. -/
def wants : Pc V → Option Nat
  | .climb o _ => insKey o
  | .stab o _ _ => insKey o
  | .nk o _ _ _ => insKey o
  | .cmp o _ _ _ _ _ => insKey o
  | .chld o _ _ _ _ => insKey o
  | .chk o _ _ _ _ => insKey o
  | .chk2 o _ _ _ => insKey o
  | .adv o _ _ _ => insKey o
  | .sect o _ _ => insKey o
  | _ => none

/-- A step. -/
structure Went (h : Heap V) (c : Pc V) (h' : Heap V) (c' : Pc V) : Prop where
  C : Calmed h'
  L : Like h h'
  G : Goes h' c'
  E : Eff h c h' c'
  F : ∀ t, For t c → For t c' ∨ ∃ x, c' = .done (.get t) x
  D : ∀ t, For t c → Near h c → Near h c' ∧ (For t c' → dist h c' < dist h c)
  A : ∀ t x, For t c → c' = .done (.get t) x → (∃ v, x = some v ∧ ∀ w, v = w ↔ Bound h t w) ∨
    (x = none ∧ ∃ l, c = .nxt (.get t) l ∧ ¬ ((h.node l).next ≠ 0 ∧ (h.node (h.node l).next).lo ≤ t))
  N : ∀ t l, For t c → c' = .nxt (.get t) l → Al h l ∧ lookup t (h.node l).ents = none
  X : ∀ o e, c' = .fail o e → c = .fail o e
  W : ∀ t, wants c' = some t → wants c = some t

theorem Went.plain {h : Heap V} {c c' : Pc V} (C : Calmed h) (G : Goes h c') (hd : ∀ o x, c' ≠ .done o x) (hn : ∀ o l, c' ≠ .nxt o l)
    (hx : ∀ o e, c' ≠ .fail o e) (hw : wants c' = wants c) (F : ∀ t, For t c → For t c')
    (D : ∀ t, For t c → Near h c → Near h c' ∧ dist h c' < dist h c) : Went h c h c' :=
  ⟨C, .refl h, G, .inr ⟨fun _ _ => Iff.rfl, fun t v x e => absurd e (hd _ _)⟩, fun t f => .inl (F t f),
   fun t f k => ⟨(D t f k).1, fun _ => (D t f k).2⟩, fun t x _ e => absurd e (hd _ _),
   fun t l _ e => absurd e (hn _ _), fun o e g => absurd g (hx _ _), fun t g => hw ▸ g⟩

theorem Went.stay {h : Heap V} {c : Pc V} (C : Calmed h) (G : Goes h c) (F : ∀ t, ¬ For t c) : Went h c h c :=
  ⟨C, .refl h, G, .inr ⟨fun _ _ => Iff.rfl, fun t v x e => rfl⟩, fun t f => absurd f (F t), fun t f => absurd f (F t), fun t x f _ => absurd f (F t),
   fun t l f _ => absurd f (F t), fun _ _ g => g, fun _ g => g⟩

/-- A leaf is locked and released, and its entries may change. -/
theorem Like.leaf {h : Heap V} {l : Nat} (es : List (Nat × V)) (h0 : (h.node l).ht = 0) (hf : (h.node l).locked = false ∧ (h.node l).splitting = false)
    (hs : (h.node l).arr = (h.node l).base) : Like h (h.mod l (fun n => ({ n.lock with ents := es } : Node V).unlock)) := by
  refine ⟨rfl, rfl, rfl, ?_, ?_, ?_, ?_, ?_, ?_, ?_, ?_⟩
  all_goals intro n
  all_goals simp only [mod_node]
  all_goals by_cases c : n = l
  all_goals (try subst c)
  all_goals simp [*, Node.lock, Node.unlock]

theorem Goes.step {strict main : Bool} {h : Heap V} {c : Pc V} (C : Calmed h) (S : Goes h c) (hh : Index.holds (Index.step strict main h c).2 = []) :
    Went h c (Index.step strict main h c).1 (Index.step strict main h c).2 := by
  have I := C.O
  cases c with
  | idle => exact .stay C trivial (fun t g => g)
  | done o x => exact .stay C trivial (fun t g => g)
  | fail o e => exact .stay C trivial (fun t g => g)
  | climb o p =>
    obtain ⟨S2, S3⟩ := S
    have hlow := C.low p S2
    simp only [Index.step]
    split
    · refine .plain C ⟨S2, S3, S2, by rw [S3]; omega⟩ nofun nofun nofun rfl (fun t g => g) fun t g k => ⟨trivial, ?_⟩
      simp only [dist, keyOf]; omega
    · rename_i h0
      obtain ⟨a, b, k, k1, k2⟩ := C.par p S2 h0
      have hlow' := C.low _ a
      refine .plain C ⟨a, ?_⟩ nofun nofun nofun rfl (fun t g => g) fun t g k => ⟨trivial, by simp only [dist, keyOf]; omega⟩
      by_cases e : k = 0
      · have := I.fst _ a (by omega)
        rw [← e, k2, S3] at this; exact this.symm
      · have h1 := I.key _ a (by omega) (k - 1) (by omega)
        rw [show k - 1 + 1 = k by omega, k2, S3] at h1
        have := I.abv _ a (by omega) (k - 1) (by omega)
        omega
  | stab o r p =>
    obtain ⟨S2, S3, S4, S5⟩ := S
    simp only [Index.step, (C.free p S4).1, Bool.false_eq_true, if_false]
    split
    · rename_i h0
      cases o with
      | get t =>
        refine .plain C ⟨⟨t, rfl⟩, S4, S5, h0⟩ nofun nofun nofun rfl (fun t g => g) fun t' g k => ⟨trivial, ?_⟩
        simp only [dist, keyOf]; omega
      | insert t v =>
        exact .plain C ⟨⟨t, v, rfl⟩, S2, S3, S4, S5, h0⟩ nofun nofun nofun rfl (fun t' g => (by cases (show Op.insert t v = .get t' from g)))
          fun t' g => (by cases (show Op.insert t v = .get t' from g))
    · rename_i h0
      refine .plain C ⟨S2, S3, S4, S5, by omega⟩ nofun nofun nofun rfl (fun t g => g) fun t' g k => ⟨⟨by omega, rfl⟩, ?_⟩
      simp only [dist, keyOf]; omega
  | nk o r p w =>
    obtain ⟨S2, S3, S4, S5, S6⟩ := S
    have hn := C.nk p S4
    simp only [inodeWidth] at hn
    refine .plain C ⟨S2, S3, S4, S5, S6, fun _ => ⟨by omega, Nat.le_refl _, by intro j hj; omega⟩⟩ nofun nofun nofun rfl (fun t g => g) fun t g k => ⟨k, ?_⟩
    simp only [dist, keyOf, Index.step]; omega
  | cmp o r p w a b =>
    obtain ⟨S2, S3, S4, S5, S6, Sw⟩ := S
    have near : Near h (.cmp o r p w a b) → b ≤ 15 ∧ 0 < (h.node p).ht := by
      intro k
      have hn := C.nk p S4
      simp only [inodeWidth] at hn
      have := (Sw k.2).2.1
      exact ⟨by omega, k.1⟩
    simp only [Index.step]
    split
    · split
      · refine .plain C ⟨S2, S3, S4, S5, S6, fun e => ?_⟩ nofun nofun nofun rfl (fun t g => g) fun t g k => ⟨k, ?_⟩
        · obtain ⟨S7, S8, S9⟩ := Sw e
          exact ⟨S7, by omega, S9⟩
        · simp only [dist, keyOf]; have := near k; omega
      · have asc : ∀ j, b ≤ (h.node p).arr.nkeys → j < (a + b) / 2 + 1 → (h.node p).arr.ikey j ≤ (h.node p).arr.ikey ((a + b) / 2) := by
          intro j S8 hj
          have e := C.same p S4
          by_cases q : j = (a + b) / 2
          · rw [q]; exact Nat.le_refl _
          · rw [e]; exact Nat.le_of_lt (I.srt p S4 S6 j _ (by omega) (by rw [← e]; omega))
        split
        · refine .plain C ⟨S2, S3, S4, S5, S6, fun e => ?_⟩ nofun nofun nofun rfl (fun t g => g) fun t g k => ⟨k, ?_⟩
          · obtain ⟨S7, S8, S9⟩ := Sw e
            exact ⟨by omega, fun j hj => by have := asc j S8 hj; omega⟩
          · simp only [dist, keyOf]; have := near k; omega
        · refine .plain C ⟨S2, S3, S4, S5, S6, fun e => ?_⟩ nofun nofun nofun rfl (fun t g => g) fun t g k => ⟨k, ?_⟩
          · obtain ⟨S7, S8, S9⟩ := Sw e
            exact ⟨by omega, S8, fun j hj => by have := asc j S8 hj; omega⟩
          · simp only [dist, keyOf]; have := near k; omega
    · refine .plain C ⟨S2, S3, S4, S5, S6, fun e => ?_⟩ nofun nofun nofun rfl (fun t g => g) fun t g k => ⟨k, ?_⟩
      · obtain ⟨S7, S8, S9⟩ := Sw e
        exact ⟨S7, S9⟩
      · simp only [dist, keyOf]; have := near k; omega
  | chld o r p w i =>
    obtain ⟨S2, S3, S4, S5, S6, Sw⟩ := S
    have child : w = ver (h.node p) → Al h ((h.node p).arr.child i) ∧ (h.node ((h.node p).arr.child i)).ht + 1 = (h.node p).ht ∧
        (h.node ((h.node p).arr.child i)).lo ≤ o.key := by
      intro e
      obtain ⟨S7, S8⟩ := Sw e
      obtain ⟨k1, k2⟩ := C.kid p S4 S6 i S7
      refine ⟨k1, k2, ?_⟩
      rw [C.same p S4] at S7 S8 ⊢
      by_cases q : i = 0
      · rw [q, I.fst p S4 S6]; exact S5
      · have := I.key p S4 S6 (i - 1) (by omega)
        rw [show i - 1 + 1 = i by omega] at this
        rw [this]; exact S8 _ (by omega)
    simp only [Index.step]
    split
    · rename_i h0
      refine .plain C ⟨S2, S3, S2, by rw [S3]; omega⟩ nofun nofun nofun rfl (fun t g => g) fun t g k => ?_
      have := (child k.2).1.1
      omega
    · refine .plain C ⟨S2, S3, S4, S5, S6, fun e => ⟨(child e).1, (child e).2.2⟩⟩ nofun nofun nofun rfl (fun t g => g)
        fun t g k => ⟨⟨k.1, k.2, (child k.2).2.1⟩, ?_⟩
      have := k.1
      simp only [dist, keyOf]; omega
  | chk o r p w x =>
    obtain ⟨S2, S3, S4, S5, S6, Sw⟩ := S
    have fr := C.free p S4
    simp only [Index.step]
    split
    · rename_i hc
      refine .plain C ⟨S2, S3, S4, S5, S6⟩ nofun nofun nofun rfl (fun t g => g) fun t g k => ?_
      rw [k.2.1] at hc
      simp [changed, ver, fr] at hc
    · rename_i hc
      have e : w = ver (h.node p) := by
        simp [changed, fr] at hc
        simp only [ver]; exact Prod.ext hc.1.symm hc.2.symm
      obtain ⟨S7, S8⟩ := Sw e
      refine .plain C ⟨S2, S3, S7, S8⟩ nofun nofun nofun rfl (fun t g => g) fun t g k => ⟨trivial, ?_⟩
      have := k.2.2
      simp only [dist, keyOf]; omega
  | chk2 o r p w =>
    obtain ⟨S2, S3, S4, S5, S6⟩ := S
    simp only [Index.step]
    split
    · exact .plain C ⟨S2, S3, S2, by rw [S3]; omega⟩ nofun nofun nofun rfl (fun t g => g) fun t g k => absurd k id
    · exact .plain C ⟨S2, S3, S4, S5⟩ nofun nofun nofun rfl (fun t g => g) fun t g k => absurd k id
  | look o l =>
    obtain ⟨⟨t, rfl⟩, S2, S3, S4⟩ := S
    have key : (Op.get t : Op V).key = t := rfl
    simp only [Index.step, (C.free l S2).1, Bool.false_eq_true, if_false]
    rw [key] at S3 ⊢
    split
    · rename_i v g
      refine ⟨C, .refl h, trivial, .inr ⟨fun _ _ => Iff.rfl, nofun⟩, ?_, fun t' f k => ⟨trivial, fun f => absurd f id⟩, ?_, nofun, nofun, nofun⟩
      · intro t' f
        have f : (Op.get t : Op V) = .get t' := f
        cases f
        exact .inr ⟨_, rfl⟩
      · intro t' x f e
        have f : (Op.get t : Op V) = .get t' := f
        cases f
        injection e with _ e
        refine .inl ⟨v, e.symm, fun w => ⟨fun e => by cases e; exact ⟨l, S2, S4, lookup_mem g⟩, ?_⟩⟩
        rintro ⟨z, z1, z2, z3⟩
        have q1 : z = l := by
          rcases I.here S2 S4 S3 z1 z2 z3 with q | ⟨q1, q2⟩
          · exact q
          · have := I.sep l z S2 z1 S4 z2 q1 _ (lookup_mem g)
            simp only at this; omega
        subst q1
        have := mem_lookup (I.asc z z1 z2) z3
        rw [g] at this; injection this
    · rename_i g
      refine ⟨C, .refl h, ⟨⟨t, rfl⟩, S2, S3, S4⟩, .inr ⟨fun _ _ => Iff.rfl, nofun⟩, fun t' f => .inl f, ?_, nofun, ?_, nofun, nofun⟩
      · intro t' f k
        refine ⟨trivial, fun _ => ?_⟩
        simp only [dist, keyOf]; omega
      · intro t' l' f e
        cases e
        exact ⟨S2, g⟩
  | nxt o l =>
    obtain ⟨⟨t, rfl⟩, S2, S3, S4⟩ := S
    have key : (Op.get t : Op V).key = t := rfl
    simp only [Index.step]
    rw [key] at S3 ⊢
    split
    · rename_i hn
      rcases C.next l S2 with g | g
      · exact absurd g hn.1
      · refine .plain C ⟨⟨t, rfl⟩, g.1, hn.2, g.2⟩ nofun nofun nofun rfl (fun t' f => f) fun t' f k => ⟨trivial, ?_⟩
        have := I.nx' l S2 S4 hn.1
        simp only [dist, keyOf, key]; omega
    · rename_i hn
      refine ⟨C, .refl h, trivial, .inr ⟨fun _ _ => Iff.rfl, nofun⟩, ?_, fun t' f k => ⟨trivial, fun f => absurd f id⟩, ?_, nofun, nofun, nofun⟩
      · intro t' f
        have f : (Op.get t : Op V) = .get t' := f
        cases f
        exact .inr ⟨_, rfl⟩
      · intro t' x f e
        have f : (Op.get t : Op V) = .get t' := f
        cases f
        injection e with _ e
        exact .inr ⟨e.symm, l, rfl, hn⟩
  | adv o r k l =>
    obtain ⟨⟨t, v, rfl⟩, S2, S3, S4, S5, S6⟩ := S
    cases k with
    | zero => exact .plain C ⟨S2, S3⟩ nofun nofun nofun rfl (fun t' g => absurd g id) fun t' g => absurd g id
    | succ k =>
      simp only [Index.step]
      split
      · rename_i hn
        rcases C.next l S4 with g | g
        · exact absurd g hn.1
        · exact .plain C ⟨⟨t, v, rfl⟩, S2, S3, g.1, hn.2, g.2⟩ nofun nofun nofun rfl (fun t' g => absurd g id) fun t' g => absurd g id
      · exact .plain C ⟨⟨t, v, rfl⟩, S2, S3, S4, S5, S6⟩ nofun nofun nofun rfl (fun t' g => absurd g id) fun t' g => absurd g id
  | sect o r l =>
    obtain ⟨⟨t, v, rfl⟩, S2, S3, S4, S5, S6⟩ := S
    have S5 : (h.node l).lo ≤ t := S5
    have hl := (C.free l S4).1
    have store : ¬ ((h.node l).next ≠ 0 ∧ (h.node (h.node l).next).lo ≤ t) →
        Went h (.sect (.insert t v) r l) (h.mod l (fun n => ({ n.lock with ents := put t v n.ents } : Node V).unlock))
          (.done (.insert t v) (lookup t (h.node l).ents)) := by
      intro hn
      have P := OPost.put' (r := r) (v := v) S4 S6 I S5 hl hn
      have L := Like.leaf (put t v (h.node l).ents) S6 (C.free l S4) (C.same l S4)
      have e : h.mod l (fun n => ({ n.lock with ents := put t v (h.node l).ents } : Node V).unlock) =
          h.mod l (fun n => ({ n.lock with ents := put t v n.ents } : Node V).unlock) := by
        simp only [Heap.mod]
      rw [e] at L
      exact ⟨C.like L P.I, L, trivial, P.eff, fun t f => absurd f id, fun t f => absurd f id, fun t x f => absurd f id, fun t x f => absurd f id, nofun, nofun⟩
    simp only [Index.step, hl, Bool.false_eq_true, if_false] at hh ⊢
    split
    · have L := Like.leaf (h.node l).ents S6 (C.free l S4) (C.same l S4)
      have e : h.mod l (fun n => ({ n.lock with ents := (h.node l).ents } : Node V).unlock) = h.mod l (fun n => n.lock.unlock) := by
        simp only [Heap.mod]
        congr 1
      rw [e] at L
      have K := OInv.congr' (s' := h.mod l (fun n => n.lock.unlock)) I C.topAl C.rootAl (fun n a b i hi => by
          rw [← C.same n a] at hi ⊢; exact (C.kid n a b i hi).1) (fun n a b => by
          rcases C.next n a with g | g
          · exact absurd g b
          · exact g.1) rfl rfl rfl (fun n a => ⟨L.ht n, L.lo n, by
            simp only [mod_node]
            by_cases c : n = l
            · subst c; simp [Node.lock]
            · simp [c], L.next n, fun _ => L.base n a⟩)
      exact ⟨C.like L K.1, L, ⟨by rw [L.al]; exact S2, by rw [L.lo]; exact S3⟩, .inr ⟨K.2, nofun⟩, fun t f => absurd f id, fun t f => absurd f id,
        fun t x f => absurd f id, fun t x f => absurd f id, nofun, fun t g => g⟩
    · rename_i hn
      have st := store hn
      rw [if_neg hn] at hh
      split
      · rename_i old g
        rw [g] at st; exact st
      · rename_i g
        rw [g] at st hh
        simp only at hh
        split
        · exact st
        · rename_i g2
          rw [if_neg g2] at hh
          simp [Index.holds] at hh
  | par x => exact absurd S id
  | lck x p => exact absurd S id
  | rechk x p => exact absurd S id
  | ins x p todo => exact absurd S id

/-- No node is split by an insert of a key that is there. -/
theorem Goes.keeps {strict main : Bool} {h : Heap V} {c : Pc V} (C : Calmed h) (S : Goes h c) (hw : ∀ t, wants c = some t → ∃ w, Bound h t w) :
    Index.holds (Index.step strict main h c).2 = [] := by
  cases c with
  | sect o r l =>
    obtain ⟨⟨t, v, rfl⟩, S2, S3, S4, S5, S6⟩ := S
    have S5 : (h.node l).lo ≤ t := S5
    simp only [Index.step, (C.free l S4).1, Bool.false_eq_true, if_false]
    split
    · rfl
    · rename_i hn
      split
      · rfl
      · rename_i g
        exfalso
        obtain ⟨w, z, z1, z2, z3⟩ := hw t rfl
        rcases C.O.here S4 S6 S5 z1 z2 z3 with q | ⟨q1, q2⟩
        · subst q; exact lookup_none g _ z3 rfl
        · obtain ⟨g1, g2⟩ := C.O.nx l z S4 z1 S6 z2 q1
          exact hn ⟨g1, Nat.le_trans g2 q2⟩
  | stab o r p => cases o <;> simp only [Index.step] <;> repeat' split
                  all_goals rfl
  | adv o r k l => cases k <;> simp only [Index.step] <;> repeat' split
                   all_goals rfl
  | par x => exact absurd S id
  | lck x p => exact absurd S id
  | rechk x p => exact absurd S id
  | ins x p todo => exact absurd S id
  | _ => simp only [Index.step] <;> (repeat' split) <;> rfl

section
variable {strict main : Bool} {σ : Nat → St V} {α : Nat → Act V}

/-- All threads are as `Goes` says, in a heap as `Calmed` says. -/
structure Quietly (s : St V) : Prop where
  C : Calmed s.heap
  G : ∀ j, Goes s.heap (s.pc j)

theorem goes_one (E : Exec strict main σ α) {m : Nat} (Q : Quietly (σ m)) (hh : ∀ j, holds ((σ (m + 1)).pc j) = []) :
    Quietly (σ (m + 1)) ∧ Like (σ m).heap (σ (m + 1)).heap ∧
    ((∃ i, α m = .run i ∧ Went (σ m).heap ((σ m).pc i) (σ (m + 1)).heap ((σ (m + 1)).pc i) ∧ ∀ j, j ≠ i → (σ (m + 1)).pc j = (σ m).pc j) ∨
     (∃ i o, α m = .call i o ∧ (σ (m + 1)).heap = (σ m).heap ∧ ((σ (m + 1)).pc = (σ m).pc ∨
       (((σ m).pc i = .idle ∨ ∃ a b, (σ m).pc i = .done a b) ∧ (σ (m + 1)).pc = upd (σ m).pc i (.climb o (σ m).heap.root))))) := by
  cases ha : α m with
  | call i o =>
    have hn := E.next m
    rw [ha] at hn
    rcases act_call (strict := strict) (main := main) (σ m) i o with ⟨e, _, _⟩ | ⟨e, g⟩
    · rw [e] at hn
      rw [hn]
      exact ⟨Q, .refl _, .inr ⟨i, o, rfl, rfl, .inl rfl⟩⟩
    · rw [e] at hn
      rw [hn]
      refine ⟨⟨Q.C, fun j => ?_⟩, .refl _, .inr ⟨i, o, rfl, rfl, .inr ⟨g, rfl⟩⟩⟩
      by_cases c : j = i
      · subst c; simp only [upd_same]; exact ⟨Q.C.rootAl, Q.C.O.rootLo⟩
      · simp only [upd_ne _ _ _ c]; exact Q.G j
  | run i =>
    have hn := E.next m
    rw [ha] at hn
    simp only [act] at hn
    have h1 := hh i
    rw [hn] at h1 ⊢
    simp only [upd_same] at h1 ⊢
    have W := (Q.G i).step Q.C h1
    refine ⟨⟨W.C, fun j => ?_⟩, W.L, .inl ⟨i, rfl, by simp only [upd_same]; exact W, fun j hj => by simp only [upd_ne _ _ _ hj]⟩⟩
    by_cases c : j = i
    · subst c; simp only [upd_same]; exact W.G
    · simp only [upd_ne _ _ _ c]; exact (Q.G j).like W.L

theorem goes_exec (E : Exec strict main σ α) {a : Nat} (Q : Quietly (σ a)) : ∀ d, (∀ m, a < m → m ≤ a + d → ∀ j, holds ((σ m).pc j) = []) →
    Quietly (σ (a + d)) ∧ Like (σ a).heap (σ (a + d)).heap
  | 0, _ => ⟨Q, .refl _⟩
  | d + 1, h => by
    obtain ⟨h1, h2⟩ := goes_exec E Q d (fun m a b => h m a (by omega))
    obtain ⟨g1, g2, _⟩ := goes_one E h1 (h _ (by omega) (by omega))
    exact ⟨g1, h2.trans g2⟩

/-- What is known of a lookup for `t` that began at step `n0` and is at `c` at step `m`. -/
def Been (σ : Nat → St V) (n0 t m : Nat) (c : Pc V) : Prop :=
  For t c ∧ ∀ l, c = .nxt (.get t) l → ∃ q, n0 < q ∧ q < m ∧ Al (σ q).heap l ∧ lookup t ((σ q).heap.node l).ents = none

theorem Been.start {j t n0 : Nat} (E : Exec strict main σ α) (hc : α n0 = .call j (.get t))
    (hf : (σ n0).pc j = .idle ∨ ∃ a b, (σ n0).pc j = .done a b) : Been σ n0 t (n0 + 1) ((σ (n0 + 1)).pc j) := by
  rw [E.next, hc]
  rcases act_call (strict := strict) (main := main) (σ n0) j (.get t) with ⟨_, g1, g2⟩ | ⟨e, _⟩
  · rcases hf with g | ⟨x, y, g⟩
    · exact absurd g g1
    · exact absurd g (g2 x y)
  · rw [e]; simp only [upd_same]
    exact ⟨rfl, nofun⟩

/-- A lookup under way stays one, and remembers a moment at which the leaf did not have its key. -/
theorem goes_hist (E : Exec strict main σ α) {a N : Nat} (Q : Quietly (σ a)) (hh : ∀ m, a < m → m ≤ N → ∀ j, holds ((σ m).pc j) = [])
    {j t n0 b : Nat} (ha : a ≤ b) (hb : n0 < b) (B : Been σ n0 t b ((σ b).pc j)) :
    ∀ d, b + d ≤ N → (∀ m, b ≤ m → m ≤ b + d → InCall (σ m) j) → Been σ n0 t (b + d) ((σ (b + d)).pc j) := by
  intro d
  induction d with
  | zero => intro _ _; exact B
  | succ d ih =>
    intro hN hin
    obtain ⟨h1, h2⟩ := ih (by omega) (fun m a b => hin m a (by omega))
    obtain ⟨Qm, _⟩ := goes_exec E Q (b + d - a) (fun m a b => hh m a (by omega))
    rw [show a + (b + d - a) = b + d by omega] at Qm
    have keep : (σ (b + d + 1)).pc j = (σ (b + d)).pc j → Been σ n0 t (b + d + 1) ((σ (b + d + 1)).pc j) := by
      intro e
      rw [e]
      refine ⟨h1, fun l g => ?_⟩
      obtain ⟨q, q1, q2, q3⟩ := h2 l g
      exact ⟨q, q1, by omega, q3⟩
    rw [← Nat.add_assoc]
    rcases (goes_one E Qm (hh _ (by omega) (by omega))).2.2 with ⟨i, _, W, hj⟩ | ⟨i, o, _, _, g⟩
    · by_cases c : j = i
      · subst c
        rcases W.F t h1 with f | ⟨x, f⟩
        · refine ⟨f, fun l g => ⟨b + d, by omega, by omega, W.N t l h1 g⟩⟩
        · exact absurd f ((hin _ (by omega) (Nat.le_refl _)).2.1 _ _)
      · exact keep (hj j c)
    · rcases g with g | ⟨g1, g2⟩
      · exact keep (by rw [g])
      · have : j ≠ i := by
          rintro rfl
          rcases g1 with g | ⟨a, b, g⟩ <;> rw [g] at h1 <;> exact h1
        exact keep (by rw [g2]; simp only [upd_ne _ _ _ this])

/-- What a lookup returns was bound at one moment. -/
theorem goes_get (E : Exec strict main σ α) {a N : Nat} (Q : Quietly (σ a)) (hh : ∀ m, a < m → m ≤ N → ∀ j, holds ((σ m).pc j) = [])
    {j t n0 b k : Nat} {x : Option V} (ha : a ≤ b) (hb : n0 < b) (B : Been σ n0 t b ((σ b).pc j)) (hk : k < N) (h0 : b ≤ k)
    (hin : ∀ m, b ≤ m → m ≤ k → InCall (σ m) j) (hr : α k = .run j) (hret : (σ (k + 1)).pc j = .done (.get t) x)
    (past : ∀ q, n0 < q → q ≤ k → OInv (σ q).heap ∧ ∀ z, Al (σ q).heap z → Al (σ k).heap z ∧ ((σ k).heap.node z).ht = ((σ q).heap.node z).ht ∧
      ((σ k).heap.node z).lo = ((σ q).heap.node z).lo) :
    ∃ m, n0 < m ∧ m ≤ k ∧ ∀ v, x = some v ↔ Bound (σ m).heap t v := by
  obtain ⟨h1, h2⟩ := goes_hist E Q hh ha hb B (k - b) (by omega) (fun m a b => hin m a (by omega))
  rw [show b + (k - b) = k by omega] at h1 h2
  obtain ⟨Qk, Lk⟩ : Quietly (σ k) ∧ Like (σ a).heap (σ k).heap := by
    have := goes_exec E Q (k - a) (fun q a b => hh q a (by omega))
    rw [show a + (k - a) = k by omega] at this
    exact this
  rcases (goes_one E Qk (hh _ (by omega) (by omega))).2.2 with ⟨i, g, W, hj⟩ | ⟨i, o, g, _, _⟩
  · rw [hr] at g; cases g
    rcases W.A t x h1 hret with ⟨v, rfl, e⟩ | ⟨rfl, l, e1, e2⟩
    · exact ⟨k, by omega, Nat.le_refl _, fun w => by rw [← e w]; exact Option.some_inj⟩
    · obtain ⟨q, q1, q2, q3, q4⟩ := h2 l e1
      obtain ⟨Iq, Pq⟩ := past q q1 (by omega)
      refine ⟨q, q1, by omega, fun v => ⟨nofun, ?_⟩⟩
      have G := Qk.G j
      rw [e1] at G
      obtain ⟨_, S2, S3, S4⟩ := G
      have S3 : ((σ k).heap.node l).lo ≤ t := S3
      obtain ⟨_, l2, l3⟩ := Pq l q3
      rintro ⟨z, z1, z2, z3⟩
      obtain ⟨y1, y2, y3⟩ := Pq z z1
      rcases Iq.here q3 (by omega) (by omega) z1 z2 z3 with g | ⟨g1, g2⟩
      · subst g; exact absurd rfl (lookup_none q4 _ z3)
      · obtain ⟨g3, g4⟩ := Qk.C.O.nx l z S2 y1 S4 (by omega) (by omega)
        exact absurd ⟨g3, by omega⟩ e2
  · rw [hr] at g; cases g

/-- Inserts of keys that are there split nothing. -/
theorem goes_updates (E : Exec strict main σ α) {a : Nat} (Q : Quietly (σ a)) (hw : ∀ j t, wants ((σ a).pc j) = some t → ∃ w, Bound (σ a).heap t w)
    (hi : ∀ m, a ≤ m → ∀ j t v, α m = .call j (.insert t v) → ∃ w, Bound (σ a).heap t w) :
    ∀ d, (∀ j, holds ((σ (a + d)).pc j) = []) ∧ Quietly (σ (a + d)) ∧ (∀ j t, wants ((σ (a + d)).pc j) = some t → ∃ w, Bound (σ a).heap t w) ∧
      ∀ t w, Bound (σ a).heap t w → ∃ w', Bound (σ (a + d)).heap t w'
  | 0 => ⟨fun j => (Q.G j).holds, Q, fun j t g => hw j t g, fun t w g => ⟨w, g⟩⟩
  | d + 1 => by
    obtain ⟨h1, h2, h3, h4⟩ := goes_updates E Q hw hi d
    have hh : ∀ j, holds ((σ (a + d + 1)).pc j) = [] := by
      intro j
      rw [E.next]
      cases ha : α (a + d) with
      | call i o =>
        rcases act_call (strict := strict) (main := main) (σ (a + d)) i o with ⟨e, _, _⟩ | ⟨e, _⟩
        · rw [e]; exact h1 j
        · rw [e]
          by_cases c : j = i
          · subst c; simp only [upd_same]; rfl
          · simp only [upd_ne _ _ _ c]; exact h1 j
      | run i =>
        simp only [act]
        by_cases c : j = i
        · subst c
          simp only [upd_same]
          refine (h2.G j).keeps h2.C fun t g => ?_
          obtain ⟨w, g⟩ := h3 j t g
          exact h4 t w g
        · simp only [upd_ne _ _ _ c]; exact h1 j
    obtain ⟨g1, g2, g3⟩ := goes_one E h2 hh
    rw [← Nat.add_assoc]
    refine ⟨hh, g1, ?_, ?_⟩
    · intro j t g
      rcases g3 with ⟨i, _, W, hj⟩ | ⟨i, o, ha, _, e⟩
      · by_cases c : j = i
        · subst c; exact h3 j t (W.W t g)
        · rw [hj j c] at g; exact h3 j t g
      · rcases e with e | ⟨_, e⟩
        · rw [e] at g; exact h3 j t g
        · rw [e] at g
          by_cases c : j = i
          · subst c
            simp only [upd_same] at g
            cases o with
            | get t' => cases g
            | insert t' v =>
              cases g
              exact hi _ (by omega) _ _ _ ha
          · simp only [upd_ne _ _ _ c] at g; exact h3 j t g
    · intro t w g
      obtain ⟨w', g⟩ := h4 t w g
      rcases g3 with ⟨i, _, W, hj⟩ | ⟨i, o, ha, e, _⟩
      · rcases W.E with ⟨r, l, t', v', x, _, _, _, e⟩ | ⟨e, _⟩
        · by_cases c : t = t'
          · exact ⟨v', (e t v').2 (by rw [if_pos c])⟩
          · exact ⟨w', (e t w').2 (by rw [if_neg c]; exact g)⟩
        · exact ⟨w', (e t w').2 g⟩
      · exact ⟨w', by rw [e]; exact g⟩

/-- A lookup that is run again and again returns. -/
theorem goes_returns (E : Exec strict main σ α) {a : Nat} (Q : Quietly (σ a)) (hh : ∀ m, a < m → ∀ j, holds ((σ m).pc j) = [])
    {j t : Nat} (hr : ∀ m, ∃ k, m ≤ k ∧ α k = .run j) :
    ∀ (N m : Nat), a ≤ m → For t ((σ m).pc j) → Near (σ a).heap ((σ m).pc j) → dist (σ a).heap ((σ m).pc j) < N →
      ∃ k x, m ≤ k ∧ α k = .run j ∧ (∀ q, m ≤ q → q ≤ k → For t ((σ q).pc j)) ∧ (σ (k + 1)).pc j = .done (.get t) x := by
  have at' : ∀ m, a ≤ m → Quietly (σ m) ∧ Like (σ a).heap (σ m).heap := by
    intro m m1
    have := goes_exec E Q (m - a) (fun q a b => hh q a)
    rw [show a + (m - a) = m by omega] at this
    exact this
  have one : ∀ m, a ≤ m → For t ((σ m).pc j) → α m ≠ .run j → (σ (m + 1)).pc j = (σ m).pc j := by
    intro m hm f hne
    rcases (goes_one E (at' m hm).1 (hh _ (by omega))).2.2 with ⟨i, g, W, hj⟩ | ⟨i, o, g, _, e⟩
    · exact hj j (by rintro rfl; exact hne g)
    · rcases e with e | ⟨g, e⟩
      · rw [e]
      · rw [e]
        have : j ≠ i := by
          rintro rfl
          rcases g with g | ⟨a, b, g⟩ <;> rw [g] at f <;> exact f
        simp only [upd_ne _ _ _ this]
  have wait : ∀ d m, a ≤ m → For t ((σ m).pc j) → α (m + d) = .run j →
      ∃ k, m ≤ k ∧ α k = .run j ∧ ∀ q, m ≤ q → q ≤ k → (σ q).pc j = (σ m).pc j := by
    intro d
    induction d with
    | zero => exact fun m hm f ha => ⟨m, Nat.le_refl _, ha, fun q a b => by rw [show q = m by omega]⟩
    | succ d ih =>
      intro m hm f ha
      by_cases c : α m = .run j
      · exact ⟨m, Nat.le_refl _, c, fun q a b => by rw [show q = m by omega]⟩
      · have e := one m hm f c
        obtain ⟨k, k1, k2, k3⟩ := ih (m + 1) (by omega) (by rw [e]; exact f) (by rw [← ha]; congr 1; omega)
        refine ⟨k, by omega, k2, fun q a b => ?_⟩
        rcases Nat.eq_or_lt_of_le a with a | a
        · rw [a]
        · rw [k3 q a b, e]
  intro N
  induction N with
  | zero =>
    intro m hm f _ hd
    omega
  | succ N ih =>
    intro m hm f nr hd
    obtain ⟨k0, a1, a2⟩ := hr m
    obtain ⟨k, k1, k2, k3⟩ := wait (k0 - m) m hm f (by rw [show m + (k0 - m) = k0 by omega]; exact a2)
    have ek := k3 k k1 (Nat.le_refl _)
    obtain ⟨Qk, Lk⟩ := at' k (by omega)
    rcases (goes_one E Qk (hh _ (by omega))).2.2 with ⟨i, g, W, hj⟩ | ⟨i, o, g, _, e⟩
    · rw [k2] at g; cases g
      obtain ⟨D1, D2⟩ := W.D t (by rw [ek]; exact f) (by rw [ek]; exact nr.like Lk)
      rcases W.F t (by rw [ek]; exact f) with L1 | ⟨x, L1⟩
      · have L2 := D2 L1
        rw [dist_like Lk, dist_like Lk, ek] at L2
        obtain ⟨k', x, b1, b2, b3, b4⟩ := ih (k + 1) (by omega) L1 (Lk.near' D1) (by omega)
        refine ⟨k', x, by omega, b2, fun q c1 c2 => ?_, b4⟩
        rcases Nat.lt_or_ge k q with g | g
        · exact b3 q g c2
        · rw [k3 q c1 g]; exact f
      · exact ⟨k, x, k1, k2, fun q c1 c2 => by rw [k3 q c1 c2]; exact f, L1⟩
    · rw [k2] at g; cases g
end

/-- A thread that splits nothing, after another has given up a split. -/
theorem Goes.of_full {main : Bool} {s : St V} (F : Full main s) {i j : Nat} {x : Ctx V} (hx : s.pc i = .par x) (hj : Index.holds (s.pc j) = [])
    (C : Calmed ((s.heap.mod x.y Node.unlock).mod x.l Node.unlock)) :
    Goes ((s.heap.mod x.y Node.unlock).mod x.l Node.unlock) (s.pc j) := by
  have ok := F.I.ok j
  have R := F.R j
  have okx := F.I.ok i
  rw [hx] at okx
  have okx : CtxOk main s.heap x := okx
  have A : ∀ n, Al ((s.heap.mod x.y Node.unlock).mod x.l Node.unlock) n = Al s.heap n := fun n => rfl
  have e : ∀ n, (((s.heap.mod x.y Node.unlock).mod x.l Node.unlock).node n).ht = (s.heap.node n).ht ∧
      (((s.heap.mod x.y Node.unlock).mod x.l Node.unlock).node n).lo = (s.heap.node n).lo ∧
      (((s.heap.mod x.y Node.unlock).mod x.l Node.unlock).node n).arr = (s.heap.node n).arr := by
    intro n
    simp only [mod_node]
    by_cases c1 : n = x.l
    · subst c1
      by_cases c2 : x.l = x.y
      · simp [← c2]
      · simp [c2]
    · by_cases c2 : n = x.y
      · subst c2; simp [c1]
      · simp [c1, c2]
  have ht := fun n => (e n).1
  have lo := fun n => (e n).2.1
  have ar := fun n => (e n).2.2
  have fresh : ∀ p w, Al s.heap p → vle w (ver (s.heap.node p)) → w = ver (((s.heap.mod x.y Node.unlock).mod x.l Node.unlock).node p) →
      Fresh s.heap p w := by
    intro p w hp hv hw
    have fr := (C.free p hp).1
    simp only [mod_node] at hw fr
    have s1 := okx.sl
    have s2 := okx.sy
    by_cases c1 : p = x.l
    · subst c1
      rw [if_pos rfl, if_neg okx.ne] at hw
      exfalso
      simp only [ver, unlock_vs, unlock_vi, s1, if_true] at hw
      simp only [vle, ver, hw] at hv
      omega
    · by_cases c2 : p = x.y
      · subst c2
        rw [if_neg c1, if_pos rfl] at hw
        exfalso
        simp only [ver, unlock_vs, unlock_vi, s2, if_true] at hw
        simp only [vle, ver, hw] at hv
        omega
      · rw [if_neg c1, if_neg c2] at hw fr
        exact ⟨hw.symm, fr⟩
  revert ok R hj
  generalize s.pc j = c
  intro hj ok R
  cases c with
  | idle => trivial
  | done o x => trivial
  | fail o x => trivial
  | climb o p => simp only [Goes, A, lo]; exact ⟨ok, R⟩
  | stab o r p => simp only [Goes, A, lo]; exact ⟨ok.1, R.1, ok.2, R.2⟩
  | nk o r p w => simp only [Goes, A, lo, ht]; exact ⟨ok.1, R.1, ok.2.1, R.2.1, ok.2.2⟩
  | cmp o r p w a b =>
    simp only [Goes, A, lo, ht, ar]
    exact ⟨ok.1, R.1, ok.2.1, R.2.1, ok.2.2, fun g => R.2.2.2 (fresh p w ok.2.1 R.2.2.1 g)⟩
  | chld o r p w a =>
    simp only [Goes, A, lo, ht, ar]
    exact ⟨ok.1, R.1, ok.2.1, R.2.1, ok.2.2, fun g => R.2.2.2 (fresh p w ok.2.1 R.2.2.1 g)⟩
  | chk o r p w a =>
    simp only [Goes, A, lo, ht, ar]
    exact ⟨ok.1, R.1, ok.2.1, R.2.1, ok.2.2.1, fun g => ⟨ok.2.2.2, R.2.2.2 (fresh p w ok.2.1 R.2.2.1 g)⟩⟩
  | chk2 o r p w => simp only [Goes, A, lo, ht]; exact ⟨ok.1, R.1, ok.2.1, R.2, ok.2.2⟩
  | look o l => simp only [Goes, A, lo, ht]; exact ⟨R.2, ok.1, R.1, ok.2⟩
  | nxt o l => simp only [Goes, A, lo, ht]; exact ⟨R.2, ok.1, R.1, ok.2⟩
  | adv o r k l => simp only [Goes, A, lo, ht]; exact ⟨ok.2.2.2, ok.1, R.1, ok.2.1, R.2, ok.2.2.1⟩
  | sect o r l => simp only [Goes, A, lo, ht]; exact ⟨ok.2.2.2, ok.1, R.1, ok.2.1, R.2, ok.2.2.1⟩
  | par x => simp [Index.holds] at hj
  | lck x p => simp [Index.holds] at hj
  | rechk x p => simp [Index.holds] at hj
  | ins x p t => simp [Index.holds] at hj

end Verif.Index
