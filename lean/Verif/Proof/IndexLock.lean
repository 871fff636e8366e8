import Verif.Proof.IndexLive
set_option linter.unusedSimpArgs false
set_option linter.unusedVariables false
/-! Locks and heights in every execution of the index machine, also after a call has failed. -/
namespace Verif.Index
open Verif.Internode
variable {V : Type}

/-- The pointers of a node lead one level up, one level down and along the leaves. -/
structure NodeOk (s : Heap V) (x : Node V) : Prop where
  par : x.parent = 0 ∨ Al s x.parent ∧ (s.node x.parent).ht = x.ht + 1
  cells : ∀ i, x.arr.child i = 0 ∨ Al s (x.arr.child i) ∧ (s.node (x.arr.child i)).ht + 1 = x.ht
  next : x.next = 0 ∨ Al s x.next ∧ (s.node x.next).ht = 0
  low : x.ht < s.fresh

/-- The heap, whatever has happened. -/
structure WH (s : Heap V) : Prop where
  root : Al s s.root
  node : ∀ n, Al s n → NodeOk s (s.node n)

/-- Nodes keep their height. -/
structure Grows (s s' : Heap V) : Prop where
  fresh : s.fresh ≤ s'.fresh
  ht : ∀ n, Al s n → (s'.node n).ht = (s.node n).ht

theorem Grows.refl (s : Heap V) : Grows s s := ⟨Nat.le_refl _, fun _ _ => rfl⟩
theorem Grows.trans {a b c : Heap V} (h : Grows a b) (h' : Grows b c) : Grows a c :=
  ⟨Nat.le_trans h.fresh h'.fresh, fun n hn => by rw [h'.ht n (hn.mono h.fresh), h.ht n hn]⟩

theorem NodeOk.mono {s s' : Heap V} {x : Node V} (g : Grows s s') (h : NodeOk s x) : NodeOk s' x := by
  refine ⟨?_, fun i => ?_, ?_, Nat.lt_of_lt_of_le h.low g.fresh⟩
  · rcases h.par with e | ⟨e1, e2⟩
    · exact .inl e
    · exact .inr ⟨e1.mono g.fresh, by rw [g.ht _ e1]; exact e2⟩
  · rcases h.cells i with e | ⟨e1, e2⟩
    · exact .inl e
    · exact .inr ⟨e1.mono g.fresh, by rw [g.ht _ e1]; exact e2⟩
  · rcases h.next with e | ⟨e1, e2⟩
    · exact .inl e
    · exact .inr ⟨e1.mono g.fresh, by rw [g.ht _ e1]; exact e2⟩

theorem NodeOk.same {s : Heap V} {x y : Node V} (h : NodeOk s x) (hp : y.parent = x.parent) (ha : y.arr = x.arr)
    (hn : y.next = x.next) (hh : y.ht = x.ht) : NodeOk s y := by
  refine ⟨?_, ?_, ?_, ?_⟩
  · rw [hp, hh]; exact h.par
  · rw [ha, hh]; exact h.cells
  · rw [hn]; exact h.next
  · rw [hh]; exact h.low

theorem NodeOk.unlock {s : Heap V} {x : Node V} (h : NodeOk s x) : NodeOk s x.unlock := h.same (by simp) (by simp) (by simp) (by simp)

theorem grows_mod (s : Heap V) (n : Nat) (f : Node V → Node V) (h : (f (s.node n)).ht = (s.node n).ht) : Grows s (s.mod n f) := by
  refine ⟨Nat.le_refl _, fun m _ => ?_⟩
  rw [mod_node]
  split
  · rename_i e; rw [h, e]
  · rfl

/-- Change one node, keeping its pointers in order. -/
theorem WH.mod {s : Heap V} (H : WH s) {n : Nat} {f : Node V → Node V} (h : (f (s.node n)).ht = (s.node n).ht)
    (hn : Al s n → NodeOk s (f (s.node n))) : WH (s.mod n f) := by
  refine ⟨H.root, fun m hm => ?_⟩
  refine NodeOk.mono (grows_mod s n f h) ?_
  have hm : Al s m := hm
  rw [mod_node]
  split
  · rename_i e; exact hn (e ▸ hm)
  · exact H.node m hm

theorem WH.unlock {s : Heap V} (H : WH s) (n : Nat) : WH (s.mod n Node.unlock) := H.mod (by simp) fun h => (H.node n h).unlock

theorem grows_unlock (s : Heap V) (n : Nat) : Grows s (s.mod n Node.unlock) := grows_mod s n _ (by simp)

/-- Local variables of a propagation. -/
structure WCtx (s : Heap V) (c : Ctx V) : Prop where
  al : Al s c.l
  ay : Al s c.y
  ar : Al s c.r
  ht : (s.node c.y).ht = (s.node c.l).ht

theorem WCtx.mono {s s' : Heap V} {c : Ctx V} (g : Grows s s') (h : WCtx s c) : WCtx s' c :=
  ⟨h.al.mono g.fresh, h.ay.mono g.fresh, h.ar.mono g.fresh, by rw [g.ht _ h.al, g.ht _ h.ay]; exact h.ht⟩

/-- A thread. -/
def WOk (s : Heap V) : Pc V → Prop
  | .idle => True
  | .climb _ p => Al s p
  | .stab _ r p => Al s r ∧ Al s p
  | .nk _ r p _ => Al s r ∧ Al s p
  | .cmp _ r p _ _ _ => Al s r ∧ Al s p
  | .chld _ r p _ _ => Al s r ∧ Al s p
  | .chk _ r p _ c => Al s r ∧ Al s p ∧ Al s c
  | .chk2 _ r p _ => Al s r ∧ Al s p
  | .look _ l => Al s l
  | .nxt _ l => Al s l
  | .adv o r _ l => Al s r ∧ Al s l ∧ (s.node l).ht = 0 ∧ ∃ t v, o = .insert t v
  | .sect o r l => Al s r ∧ Al s l ∧ (s.node l).ht = 0 ∧ ∃ t v, o = .insert t v
  | .par c => WCtx s c
  | .lck c p => WCtx s c ∧ Al s p ∧ (s.node p).ht = (s.node c.l).ht + 1
  | .rechk c p => WCtx s c ∧ Al s p ∧ (s.node p).ht = (s.node c.l).ht + 1
  | .ins c p todo => WCtx s c ∧ Al s p ∧ (s.node p).ht = (s.node c.l).ht + 1 ∧
      ∀ i x, .child i x ∈ todo → x = 0 ∨ Al s x ∧ (s.node x).ht + 1 = (s.node p).ht
  | .done _ _ => True
  | .fail _ _ => True

theorem WOk.mono {s s' : Heap V} {c : Pc V} (g : Grows s s') (h : WOk s c) : WOk s' c := by
  have A : ∀ {n}, Al s n → Al s' n := fun h => h.mono g.fresh
  cases c with
  | idle => trivial
  | climb o p => exact A h
  | stab o r p => exact ⟨A h.1, A h.2⟩
  | nk o r p w => exact ⟨A h.1, A h.2⟩
  | cmp o r p w a b => exact ⟨A h.1, A h.2⟩
  | chld o r p w i => exact ⟨A h.1, A h.2⟩
  | chk o r p w c => exact ⟨A h.1, A h.2.1, A h.2.2⟩
  | chk2 o r p w => exact ⟨A h.1, A h.2⟩
  | look o l => exact A h
  | nxt o l => exact A h
  | adv o r k l => exact ⟨A h.1, A h.2.1, by rw [g.ht _ h.2.1]; exact h.2.2.1, h.2.2.2⟩
  | sect o r l => exact ⟨A h.1, A h.2.1, by rw [g.ht _ h.2.1]; exact h.2.2.1, h.2.2.2⟩
  | par c => exact WCtx.mono g h
  | lck c p => exact ⟨h.1.mono g, A h.2.1, by rw [g.ht _ h.2.1, g.ht _ h.1.al]; exact h.2.2⟩
  | rechk c p => exact ⟨h.1.mono g, A h.2.1, by rw [g.ht _ h.2.1, g.ht _ h.1.al]; exact h.2.2⟩
  | ins c p todo =>
    refine ⟨h.1.mono g, A h.2.1, by rw [g.ht _ h.2.1, g.ht _ h.1.al]; exact h.2.2.1, fun i x hx => ?_⟩
    rcases h.2.2.2 i x hx with e | ⟨e1, e2⟩
    · exact .inl e
    · exact .inr ⟨A e1, by rw [g.ht _ e1, g.ht _ h.2.1]; exact e2⟩
  | done o r => trivial
  | fail o e => trivial

/-- What a step does to the locks. -/
structure Locks (s : Heap V) (c : Pc V) (s' : Heap V) (c' : Pc V) : Prop where
  frame : ∀ n, Al s n → n ∉ holds c → n ∉ holds c' → (s'.node n).locked = (s.node n).locked
  new : ∀ n, n ∈ holds c' → Al s' n ∧ (s'.node n).locked = true ∧ (n ∈ holds c ∨ ¬ (Al s n ∧ (s.node n).locked = true))
  old : ∀ n, Al s' n → (s'.node n).locked = true → n ∈ holds c' ∨ Al s n ∧ (s.node n).locked = true ∧ n ∉ holds c

/-- What a step achieves. -/
structure WPost (s : Heap V) (c : Pc V) (s' : Heap V) (c' : Pc V) : Prop where
  g : Grows s s'
  H : WH s'
  ok : WOk s' c'
  L : Locks s c s' c'

theorem Locks.keep {s : Heap V} {c c' : Pc V} (h : holds c = holds c') (K : ∀ n, n ∈ holds c → Al s n ∧ (s.node n).locked = true) :
    Locks s c s c' := by
  refine ⟨fun _ _ _ _ => rfl, ?_, ?_⟩
  · rw [← h]; intro n hn; exact ⟨(K n hn).1, (K n hn).2, .inl hn⟩
  · intro n h1 h2
    by_cases hn : n ∈ holds c'
    · exact .inl hn
    · right; rw [h]; exact ⟨h1, h2, hn⟩

/-- Locks after a step without allocation, from the nodes released. -/
theorem Locks.release {s s' : Heap V} {c c' : Pc V} (hf : s'.fresh = s.fresh) (R : Nat → Prop)
    (hl : ∀ n, Al s n → ((s'.node n).locked = true ↔ (s.node n).locked = true ∧ ¬ R n))
    (hR : ∀ n, R n → n ∈ holds c) (hh : ∀ n, n ∈ holds c' ↔ n ∈ holds c ∧ ¬ R n)
    (K : ∀ n, n ∈ holds c → Al s n ∧ (s.node n).locked = true) : Locks s c s' c' := by
  have A : ∀ n, Al s' n ↔ Al s n := fun n => by simp only [Al, hf]
  refine ⟨fun n hn h1 _ => ?_, fun n hn => ?_, fun n hn hk => ?_⟩
  · have := hl n hn
    have hr : ¬ R n := fun h => h1 (hR n h)
    cases h : (s.node n).locked
    · rw [h] at this; simpa using this
    · rw [h] at this; exact this.2 ⟨rfl, hr⟩
  · obtain ⟨h1, h2⟩ := (hh n).1 hn
    obtain ⟨k1, k2⟩ := K n h1
    exact ⟨(A n).2 k1, (hl n k1).2 ⟨k2, h2⟩, .inl h1⟩
  · have hn' := (A n).1 hn
    obtain ⟨h1, h2⟩ := (hl n hn').1 hk
    by_cases h : n ∈ holds c
    · exact .inl ((hh n).2 ⟨h, h2⟩)
    · exact .inr ⟨hn', h1, h⟩

theorem setParents_ok {s : Heap V} {a : Arr Nat} {q : Nat} (H : WH s) (hq : Al s q)
    (ha : ∀ i, a.child i = 0 ∨ Al s (a.child i) ∧ (s.node (a.child i)).ht + 1 = (s.node q).ht) : ∀ k,
    WH (setParents s a q k) ∧ Grows s (setParents s a q k) ∧ (setParents s a q k).fresh = s.fresh ∧
      ∀ n, ((setParents s a q k).node n).locked = (s.node n).locked
  | 0 => ⟨H, Grows.refl s, rfl, fun _ => rfl⟩
  | k + 1 => by
    obtain ⟨h1, h2, h3, h4⟩ := setParents_ok H hq ha k
    refine ⟨h1.mod rfl fun hn => ?_, h2.trans (grows_mod _ _ _ rfl), h3, fun n => ?_⟩
    · have N := h1.node _ hn
      refine ⟨?_, N.cells, N.next, N.low⟩
      rcases ha k with e | ⟨e1, e2⟩
      · exact absurd e (by have := hn.1; omega)
      · right
        refine ⟨hq.mono h2.fresh, ?_⟩
        show ((setParents s a q k).node q).ht = ((setParents s a q k).node (a.child k)).ht + 1
        rw [h2.ht _ hq, h2.ht _ e1, e2]
    · simp only [setParents, mod_node]
      split
      · rename_i e; rw [e]; exact h4 _
      · exact h4 n

/-- The section of an insert that does not split. -/
theorem WPost.sect {s : Heap V} {o : Op V} {r l : Nat} {c' : Pc V} (H : WH s) (hl : (s.node l).locked = false) {f : Node V → Node V}
    (h1 : (f (s.node l)).parent = (s.node l).parent) (h2 : (f (s.node l)).arr = (s.node l).arr)
    (h3 : (f (s.node l)).next = (s.node l).next) (h4 : (f (s.node l)).ht = (s.node l).ht) (h5 : (f (s.node l)).locked = false)
    (h' : holds c' = []) (hok : WOk s c') : WPost s (.sect o r l) (s.mod l f) c' := by
  have g := grows_mod s l f h4
  refine ⟨g, H.mod h4 fun hn => (H.node l hn).same h1 h2 h3 h4, hok.mono g, Locks.release rfl (fun _ => False) ?_ (fun _ h => h.elim) ?_ ?_⟩
  · intro n _
    rw [mod_node]
    split
    · rename_i e; rw [e, h5, hl]; simp
    · simp
  · intro n; rw [h']; simp [holds]
  · intro n hn; simp [holds] at hn

theorem WPost.leaf {s : Heap V} {o : Op V} {r l : Nat} (H : WH s) (hr : Al s r) (hl : Al s l) (h0 : (s.node l).ht = 0)
    (hk : (s.node l).locked = false) (c : Ctx V) (c1 : c.l = l) (c2 : c.y = s.fresh) (c3 : c.r = r) :
    WPost s (.sect o r l) (splitLeaf s l) (.par c) := by
  have hlf : l ≠ s.fresh := by have := hl.2; omega
  have g : Grows s (splitLeaf s l) := by
    refine ⟨Nat.le_succ _, fun n hn => ?_⟩
    have : n ≠ s.fresh := by have := hn.2; omega
    simp only [splitLeaf, upd, if_neg this]
    split
    · rename_i e; rw [e]
    · rfl
  have hy : Al (splitLeaf s l) s.fresh := ⟨by have := hl.1; have := hl.2; omega, Nat.lt_succ_self _⟩
  have hyh : ((splitLeaf s l).node s.fresh).ht = 0 := by simp only [splitLeaf, upd_same]
  refine ⟨g, ⟨H.root.mono g.fresh, fun n hn => ?_⟩, ?_, ?_⟩
  · by_cases e : n = s.fresh
    · subst e
      have N := (H.node l hl).mono g
      simp only [splitLeaf, upd_same]
      exact ⟨.inl rfl, fun i => .inl rfl, N.next, by have := hl.2; simp only; omega⟩
    · have hn' : Al s n := ⟨hn.1, by have := hn.2; simp only [splitLeaf] at this; omega⟩
      by_cases e' : n = l
      · subst e'
        have N := (H.node n hl).mono g
        have : (splitLeaf s n).node n = { s.node n with ents := (s.node n).ents.take (leafWidth / 2), next := s.fresh, locked := true, splitting := true } := by
          simp only [splitLeaf, upd, if_neg e, if_pos rfl]; simp
        rw [this]
        exact ⟨N.par, N.cells, .inr ⟨hy, hyh⟩, N.low⟩
      · have : (splitLeaf s l).node n = s.node n := by simp only [splitLeaf, upd, if_neg e, if_neg e']
        rw [this]; exact (H.node n hn').mono g
  · refine ⟨c1 ▸ hl.mono g.fresh, c2 ▸ hy, c3 ▸ hr.mono g.fresh, ?_⟩
    rw [c1, c2, hyh, g.ht l hl, h0]
  · have lk : ∀ n, ((splitLeaf s l).node n).locked = if n = s.fresh ∨ n = l then true else (s.node n).locked := by
      intro n
      simp only [splitLeaf, upd]
      split
      · rename_i e; simp [e]
      · rename_i e
        split
        · rename_i e'; simp [e']
        · rename_i e'; simp [e, e']
    refine ⟨fun n hn _ h2 => ?_, fun n hn => ?_, fun n hn h2 => ?_⟩
    · simp only [holds, List.mem_cons, List.not_mem_nil, or_false, c1, c2, not_or] at h2
      rw [lk, if_neg (by rintro (h | h); exact h2.2 h; exact h2.1 h)]
    · simp only [holds, List.mem_cons, List.not_mem_nil, or_false, c1, c2] at hn
      rcases hn with rfl | rfl
      · exact ⟨hl.mono g.fresh, by rw [lk, if_pos (.inr rfl)], .inr (by rw [hk]; simp)⟩
      · exact ⟨hy, by rw [lk, if_pos (.inl rfl)], .inr (fun h => by have := h.1.2; omega)⟩
    · rw [lk] at h2
      split at h2
      · rename_i e
        left
        simp only [holds, List.mem_cons, List.not_mem_nil, or_false, c1, c2]
        exact e.symm
      · rename_i e
        right
        refine ⟨⟨hn.1, ?_⟩, h2, by simp [holds]⟩
        have := hn.2
        simp only [splitLeaf] at this
        have : n ≠ s.fresh := fun q => e (.inl q)
        omega

/-- Giving up. -/
theorem WPost.giveUp {s : Heap V} {c : Ctx V} (H : WH s) (K : ∀ n, n ∈ holds (.par c : Pc V) → Al s n ∧ (s.node n).locked = true)
    (o : Op V) (e : Err) : WPost s (.par c) ((s.mod c.y Node.unlock).mod c.l Node.unlock) (.fail o e) := by
  refine ⟨(grows_unlock _ _).trans (grows_unlock _ _), (H.unlock _).unlock _, trivial,
    Locks.release rfl (fun n => n = c.l ∨ n = c.y) ?_ ?_ ?_ K⟩
  · intro n _
    simp only [mod_node]
    split
    · rename_i e; simp [e]
    · rename_i e
      split
      · rename_i e'; simp [e']
      · rename_i e'; simp [e, e']
  · rintro n (h | h) <;> simp [holds, h]
  · intro n; simp [holds]; exact fun h h' => h.resolve_left h'

theorem WPost.grow {s : Heap V} {c : Ctx V} (H : WH s) (hc : WCtx s c)
    (K : ∀ n, n ∈ holds (.par c : Pc V) → Al s n ∧ (s.node n).locked = true) (m : Bool) :
    WPost s (.par c) (newRoot m s c) (.climb c.o c.r) := by
  obtain ⟨al, ay, ar, ht⟩ := hc
  have hlf : c.l ≠ s.fresh := by have := al.2; omega
  have hyf : c.y ≠ s.fresh := by have := ay.2; omega
  have nf : ((newRoot m s c).node s.fresh).ht = (s.node c.l).ht + 1 ∧ ((newRoot m s c).node s.fresh).locked = false ∧
      ((newRoot m s c).node s.fresh).parent = 0 ∧ ((newRoot m s c).node s.fresh).next = 0 ∧
      ((newRoot m s c).node s.fresh).arr = rootArr c.l c.y c.sep := by
    simp only [Index.newRoot, mod_node, if_neg hlf.symm, if_neg hyf.symm, upd_same, and_self]
  have nn : ∀ n, n ≠ s.fresh → ((newRoot m s c).node n).ht = (s.node n).ht ∧ ((newRoot m s c).node n).arr = (s.node n).arr ∧
      ((newRoot m s c).node n).next = (s.node n).next ∧
      ((newRoot m s c).node n).parent = (if n = c.l ∨ n = c.y then s.fresh else (s.node n).parent) ∧
      ((newRoot m s c).node n).locked = (if n = c.l ∨ n = c.y then false else (s.node n).locked) := by
    intro n hn
    simp only [Index.newRoot, mod_node]
    by_cases e1 : n = c.l
    · subst e1
      by_cases e2 : c.l = c.y
      · rw [if_pos rfl, if_pos e2]; simp [upd, hn, e2, e2 ▸ hlf, hyf]
      · rw [if_pos rfl, if_neg e2]; simp [upd, hn]
    · rw [if_neg e1]
      by_cases e2 : n = c.y
      · subst e2; rw [if_pos rfl]; simp [upd, hn]
      · rw [if_neg e2]; simp [upd, hn, e1, e2]
  have ff : (newRoot m s c).fresh = s.fresh + 1 := rfl
  have g : Grows s (newRoot m s c) := ⟨by rw [ff]; omega, fun n hn => (nn n (by have := hn.2; omega)).1⟩
  have fr : Al (newRoot m s c) s.fresh := ⟨by have := al.1; have := al.2; omega, by rw [ff]; omega⟩
  have Asub : ∀ n, Al (newRoot m s c) n → n ≠ s.fresh → Al s n := fun n h h' => ⟨h.1, by have := h.2; rw [ff] at this; omega⟩
  refine ⟨g, ⟨?_, fun n hn => ?_⟩, ar.mono g.fresh, ⟨fun n hn h1 _ => ?_, fun n hn => ?_, fun n hn h2 => ?_⟩⟩
  · show Al _ (if m then s.fresh else s.root)
    split
    · exact fr
    · exact H.root.mono g.fresh
  · by_cases e : n = s.fresh
    · subst e
      obtain ⟨f1, f2, f3, f4, f5⟩ := nf
      refine ⟨.inl f3, fun i => ?_, .inl f4, ?_⟩
      · rw [f5, f1]
        by_cases i1 : i = 1
        · right
          have : (rootArr c.l c.y c.sep).child i = c.y := by simp [rootArr, upd, i1]
          rw [this, g.ht _ ay, ht]; exact ⟨ay.mono g.fresh, rfl⟩
        · by_cases i0 : i = 0
          · right
            have : (rootArr c.l c.y c.sep).child i = c.l := by simp [rootArr, upd, i1, i0]
            rw [this, g.ht _ al]; exact ⟨al.mono g.fresh, rfl⟩
          · left; simp [rootArr, upd, i1, i0]
      · rw [f1, ff]; have := (H.node _ al).low; omega
    · obtain ⟨f1, f2, f3, f4, f5⟩ := nn n e
      have N := (H.node n (Asub n hn e)).mono g
      refine ⟨?_, by rw [f2, f1]; exact N.cells, by rw [f3]; exact N.next, by rw [f1]; exact N.low⟩
      rw [f4, f1]
      split
      · rename_i h
        right; refine ⟨fr, ?_⟩
        rw [nf.1]
        rcases h with rfl | rfl
        · rfl
        · rw [ht]
      · exact N.par
  · simp only [holds, List.mem_cons, List.not_mem_nil, or_false] at h1
    rw [(nn n (by have := hn.2; omega)).2.2.2.2, if_neg h1]
  · simp [holds] at hn
  · by_cases e : n = s.fresh
    · subst e; rw [nf.2.1] at h2; cases h2
    · rw [(nn n e).2.2.2.2] at h2
      split at h2
      · cases h2
      · rename_i h
        refine .inr ⟨Asub n hn e, h2, ?_⟩
        simpa only [holds, List.mem_cons, List.not_mem_nil, or_false] using h

theorem WPost.inode {s : Heap V} {c : Ctx V} {p idx : Nat} (H : WH s) (hc : WCtx s c) (hp : Al s p)
    (h3 : (s.node p).ht = (s.node c.l).ht + 1) (K : ∀ n, n ∈ holds (.rechk c p : Pc V) → Al s n ∧ (s.node n).locked = true)
    (c' : Ctx V) (e1 : c'.l = p) (e2 : c'.y = s.fresh) (e3 : c'.r = c.r) :
    WPost s (.rechk c p) (splitInode s c p idx).1 (.par c') := by
  obtain ⟨al, ay, ar, ht⟩ := hc
  have hlp : c.l ≠ p := by intro e; rw [← e] at h3; omega
  have hyp : c.y ≠ p := by intro e; rw [e] at ht; omega
  have hlf : c.l ≠ s.fresh := by have := al.2; omega
  have hyf : c.y ≠ s.fresh := by have := ay.2; omega
  have hpf : p ≠ s.fresh := by have := hp.2; omega
  -- after the arrays are split
  generalize hx : splitInto inodeWidth (s.node p).arr emptyArr idx c.sep c.y = x
  have hcell := split_cells (P := fun z => z = 0 ∨ Al s z ∧ (s.node z).ht + 1 = (s.node p).ht) (W := inodeWidth) (a := (s.node p).arr)
    (r := emptyArr) (p := idx) (k := c.sep) (c := c.y) (H.node p hp).cells (fun _ => .inl rfl) (.inr ⟨ay, by rw [ht, h3]⟩)
  rw [hx] at hcell
  let sib : Node V := { ht := (s.node p).ht, lo := x.2.2.1, ents := [], next := 0, arr := x.2.1, base := x.2.1, parent := 0,
                        rootf := false, locked := true, splitting := true, vs := 0, vi := 0 }
  let n' : Node V := { s.node p with arr := x.1, base := x.1, splitting := true }
  let t : Heap V := { s with node := upd (upd s.node p n') s.fresh sib, fresh := s.fresh + 1 }
  have tf : t.node s.fresh = sib := upd_same _ _ _
  have tp : t.node p = n' := by show upd (upd s.node p n') s.fresh sib p = n'; rw [upd_ne _ _ _ hpf, upd_same]
  have tn : ∀ n, n ≠ s.fresh → n ≠ p → t.node n = s.node n := by
    intro n h h'; show upd (upd s.node p n') s.fresh sib n = _; rw [upd_ne _ _ _ h, upd_ne _ _ _ h']
  have tl : ∀ n, (t.node n).locked = if n = s.fresh then true else (s.node n).locked := by
    intro n
    by_cases e : n = s.fresh
    · subst e; rw [tf]; simp [sib]
    · rw [if_neg e]
      by_cases e' : n = p
      · subst e'; rw [tp]
      · rw [tn n e e']
  have g : Grows s t := by
    refine ⟨Nat.le_succ _, fun n hn => ?_⟩
    have : n ≠ s.fresh := by have := hn.2; omega
    by_cases e' : n = p
    · subst e'; rw [tp]
    · rw [tn n this e']
  have fr : Al t s.fresh := ⟨by have := al.1; have := al.2; omega, Nat.lt_succ_self _⟩
  have cellt : ∀ z, (z = 0 ∨ Al s z ∧ (s.node z).ht + 1 = (s.node p).ht) → z = 0 ∨ Al t z ∧ (t.node z).ht + 1 = (s.node p).ht := by
    rintro z (h | ⟨h1, h2⟩)
    · exact .inl h
    · exact .inr ⟨h1.mono g.fresh, by rw [g.ht _ h1]; exact h2⟩
  have Ht : WH t := by
    refine ⟨H.root.mono g.fresh, fun n hn => ?_⟩
    by_cases e : n = s.fresh
    · subst e
      rw [tf]
      exact ⟨.inl rfl, fun i => cellt _ (hcell.2 i), .inl rfl, Nat.lt_succ_of_lt (H.node p hp).low⟩
    · by_cases e' : n = p
      · subst e'
        have N := (H.node n hp).mono g
        rw [tp]
        exact ⟨N.par, fun i => cellt _ (hcell.1 i), N.next, N.low⟩
      · rw [tn n e e']
        exact (H.node n ⟨hn.1, by have := hn.2; have : t.fresh = s.fresh + 1 := rfl; omega⟩).mono g
  -- parents of the children that move
  have hq : (t.node s.fresh).ht = (s.node p).ht := by rw [tf]
  obtain ⟨H1, g1, f1, l1⟩ := setParents_ok Ht fr (a := x.2.1) (fun i => by rw [hq]; exact cellt _ (hcell.2 i)) (x.2.1.nkeys + 1)
  generalize hu : setParents t x.2.1 s.fresh (x.2.1.nkeys + 1) = u at H1 g1 f1 l1
  have H2 : WH (u.mod c.y (fun z => { z with parent := if x.2.2.2 then p else s.fresh })) := by
    refine H1.mod rfl fun hn => ?_
    have N := H1.node _ hn
    refine ⟨.inr ?_, N.cells, N.next, N.low⟩
    have ey : (u.node c.y).ht + 1 = (s.node p).ht := by rw [g1.ht _ (ay.mono g.fresh), g.ht _ ay, ht, h3]
    show Al u (if x.2.2.2 then p else s.fresh) ∧ (u.node (if x.2.2.2 then p else s.fresh)).ht = (u.node c.y).ht + 1
    split
    · exact ⟨(hp.mono g.fresh).mono g1.fresh, by rw [g1.ht _ (hp.mono g.fresh), g.ht _ hp, ey]⟩
    · exact ⟨fr.mono g1.fresh, by rw [g1.ht _ fr, hq, ey]⟩
  have es : (splitInode s c p idx).1 =
      (((u.mod c.y (fun z => { z with parent := if x.2.2.2 then p else s.fresh })).mod c.y Node.unlock).mod c.l Node.unlock) := by
    subst hu; subst hx; rfl
  have G : Grows s (splitInode s c p idx).1 := by
    rw [es]
    exact ((g.trans g1).trans (grows_mod _ _ _ rfl)).trans ((grows_unlock _ _).trans (grows_unlock _ _))
  have lk : ∀ n, ((splitInode s c p idx).1.node n).locked =
      if n = c.l ∨ n = c.y then false else if n = s.fresh then true else (s.node n).locked := by
    intro n
    rw [es]
    simp only [mod_node]
    by_cases a : n = c.l
    · simp only [a, true_or, if_true, unlock_locked]
    · by_cases b : n = c.y
      · simp only [a, b, or_true, if_true, if_false, unlock_locked]
        split <;> simp
      · simp only [a, b, or_self, if_false]
        rw [l1, tl]
  have ff : (splitInode s c p idx).1.fresh = s.fresh + 1 := by rw [es]; exact f1
  refine ⟨G, by rw [es]; exact (H2.unlock _).unlock _, ?_, ⟨fun n hn h1 h2 => ?_, fun n hn => ?_, fun n hn h2 => ?_⟩⟩
  · refine ⟨e1 ▸ hp.mono G.fresh, e2 ▸ ⟨fr.1, by rw [ff]; omega⟩, e3 ▸ ar.mono G.fresh, ?_⟩
    rw [e1, e2, G.ht _ hp, es]
    simp only [mod_node, if_neg hlf.symm, if_neg hyf.symm]
    rw [g1.ht _ fr, hq]
  · simp only [holds, List.mem_cons, List.not_mem_nil, or_false, not_or] at h1
    rw [lk, if_neg (by rintro (h | h); exact h1.1 h; exact h1.2.1 h), if_neg (by have := hn.2; omega)]
  · simp only [holds, List.mem_cons, List.not_mem_nil, or_false, e1, e2] at hn
    rcases hn with rfl | rfl
    · refine ⟨hp.mono G.fresh, ?_, .inl (by simp [holds])⟩
      rw [lk, if_neg (by rintro (h | h); exact hlp h.symm; exact hyp h.symm), if_neg hpf]
      exact (K n (by simp [holds])).2
    · refine ⟨⟨fr.1, by rw [ff]; omega⟩, ?_, .inr (fun h => by have := h.1.2; omega)⟩
      rw [lk, if_neg (by rintro (h | h); exact hlf h.symm; exact hyf h.symm), if_pos rfl]
  · rw [lk] at h2
    split at h2
    · cases h2
    · rename_i h
      split at h2
      · rename_i h'; left; simp [holds, e2, h']
      · rename_i h'
        by_cases e : n = p
        · left; simp [holds, e1, e]
        · refine .inr ⟨⟨hn.1, by have := hn.2; rw [ff] at this; omega⟩, h2, ?_⟩
          simp only [holds, List.mem_cons, List.not_mem_nil, or_false]
          rintro (q | q | q)
          · exact h (.inl q)
          · exact h (.inr q)
          · exact e q

/-- Every step keeps heights and locks in order. -/
theorem step_weak {strict main : Bool} {s : Heap V} {c : Pc V} (H : WH s) (ok : WOk s c)
    (K : ∀ n, n ∈ holds c → Al s n ∧ (s.node n).locked = true) :
    WPost s c (step strict main s c).1 (step strict main s c).2 := by
  have R : ∀ c' : Pc V, holds c = holds c' → WOk s c' → WPost s c s c' := fun c' a b => ⟨Grows.refl s, H, b, Locks.keep a K⟩
  cases c with
  | idle => exact R _ rfl trivial
  | climb o p =>
    simp only [step]
    split
    · exact R _ rfl ⟨ok, ok⟩
    · rename_i h0
      rcases (H.node p ok).par with e | e
      · exact absurd e h0
      · exact R _ rfl e.1
  | stab o r p =>
    simp only [step]
    split
    · exact R _ rfl ok
    · split
      · rename_i h0
        cases o with
        | get t => exact R _ rfl ok.2
        | insert t v => exact R _ rfl ⟨ok.1, ok.2, h0, t, v, rfl⟩
      · exact R _ rfl ok
  | nk o r p w => exact R _ rfl ok
  | cmp o r p w a b =>
    simp only [step]
    split
    · split
      · exact R _ rfl ok
      · split <;> exact R _ rfl ok
    · exact R _ rfl ok
  | chld o r p w i =>
    simp only [step]
    split
    · exact R _ rfl ⟨ok.1, ok.1⟩
    · rename_i h0
      rcases (H.node p ok.2).cells i with e | e
      · exact absurd e h0
      · exact R _ rfl ⟨ok.1, ok.2, e.1⟩
  | chk o r p w c =>
    simp only [step]
    split
    · exact R _ rfl ⟨ok.1, ok.2.1⟩
    · exact R _ rfl ⟨ok.1, ok.2.2⟩
  | chk2 o r p w =>
    simp only [step]
    split
    · exact R _ rfl ⟨ok.1, ok.1⟩
    · exact R _ rfl ok
  | look o l =>
    simp only [step]
    split
    · exact R _ rfl ok
    · split
      · exact R _ rfl trivial
      · exact R _ rfl ok
  | nxt o l =>
    simp only [step]
    split
    · rename_i h0
      rcases (H.node l ok).next with e | e
      · exact absurd e h0.1
      · exact R _ rfl e.1
    · exact R _ rfl trivial
  | adv o r h l =>
    cases h with
    | zero => exact R _ rfl ok.1
    | succ h =>
      simp only [step]
      split
      · rename_i h0
        rcases (H.node l ok.2.1).next with e | e
        · exact absurd e h0.1
        · exact R _ rfl ⟨ok.1, e.1, e.2, ok.2.2.2⟩
      · exact R _ rfl ok
  | sect o r l =>
    obtain ⟨h1, h2, h3, t, v, rfl⟩ := ok
    simp only [step]
    split
    · exact R _ rfl ⟨h1, h2, h3, t, v, rfl⟩
    · rename_i hl
      have hl : (s.node l).locked = false := by simpa using hl
      split
      · dsimp only; refine WPost.sect (c' := .climb (.insert t v) r) H hl ?_ ?_ ?_ ?_ ?_ rfl h1 <;> simp [Node.lock]
      · split
        · dsimp only; refine WPost.sect (c' := .done _ _) H hl ?_ ?_ ?_ ?_ ?_ rfl trivial <;> simp [Node.lock]
        · split
          · dsimp only; refine WPost.sect (c' := .done _ _) H hl ?_ ?_ ?_ ?_ ?_ rfl trivial <;> simp [Node.lock]
          · exact WPost.leaf H h1 h2 h3 hl _ rfl rfl rfl
  | par x =>
    have h1 : WCtx s x := ok
    simp only [step]
    split
    · exact WPost.giveUp H K _ _
    · split
      · split
        · exact WPost.grow H h1 K _
        · split
          · split
            · exact WPost.grow H h1 K _
            · exact WPost.giveUp H K _ _
          · exact WPost.giveUp H K _ _
      · rename_i h0
        rcases (H.node _ h1.al).par with e | e
        · exact absurd e h0
        · exact R _ rfl ⟨⟨h1.al, h1.ay, h1.ar, h1.ht⟩, e.1, e.2⟩
  | lck x p =>
    simp only [step]
    split
    · exact R _ rfl ok
    · rename_i hl
      have hl : (s.node p).locked = false := by simpa using hl
      have g := grows_mod s p Node.lock rfl
      have lk : ∀ n, ((s.mod p Node.lock).node n).locked = if n = p then true else (s.node n).locked := by
        intro n; rw [mod_node]; split <;> rfl
      refine ⟨g, H.mod rfl fun hn => (H.node p hn).same rfl rfl rfl rfl, WOk.mono (c := .rechk x p) g ok, ⟨fun n hn _ h2 => ?_, fun n hn => ?_, fun n hn h2 => ?_⟩⟩
      · simp only [holds, List.mem_cons, List.not_mem_nil, or_false, not_or] at h2
        rw [lk, if_neg h2.2.2]
      · rw [lk]
        by_cases e : n = p
        · rw [if_pos e, e]; exact ⟨ok.2.1, rfl, .inr (by rw [hl]; simp)⟩
        · have : n ∈ holds (.lck x p : Pc V) := by
            simp only [holds, List.mem_cons, List.not_mem_nil, or_false] at hn ⊢
            rcases hn with h | h | h
            · exact .inl h
            · exact .inr h
            · exact absurd h e
          rw [if_neg e]; exact ⟨(K n this).1, (K n this).2, .inl this⟩
      · rw [lk] at h2
        by_cases e : n = p
        · left; simp [holds, e]
        · rw [if_neg e] at h2
          by_cases e' : n ∈ holds (.lck x p : Pc V)
          · left
            simp only [holds, List.mem_cons, List.not_mem_nil, or_false] at e' ⊢
            rcases e' with h | h
            · exact .inl h
            · exact .inr (.inl h)
          · exact .inr ⟨hn, h2, e'⟩
  | rechk x p =>
    obtain ⟨h1, h2, h3⟩ := ok
    have hlp : x.l ≠ p := by intro e; rw [← e] at h3; omega
    have hyp : x.y ≠ p := by intro e; have := h1.ht; rw [e] at this; omega
    have B : ∀ x' : Ctx V, x'.l = x.l → x'.y = x.y → x'.r = x.r → WPost s (.rechk x p) (s.mod p Node.unlock) (.par x') := by
      intro x' e1 e2 e3
      refine ⟨grows_unlock _ _, H.unlock _, ?_, Locks.release rfl (fun n => n = p) ?_ ?_ ?_ K⟩
      · have := h1.mono (grows_unlock s p)
        exact ⟨e1 ▸ this.al, e2 ▸ this.ay, e3 ▸ this.ar, by rw [e1, e2]; exact this.ht⟩
      · intro n _
        rw [mod_node]
        split
        · rename_i e; simp [e]
        · rename_i e; simp [e]
      · intro n h; simp [holds, h]
      · intro n
        simp only [holds, List.mem_cons, List.not_mem_nil, or_false, e1, e2]
        constructor
        · rintro (h | h)
          · exact ⟨.inl h, by rw [h]; exact hlp⟩
          · exact ⟨.inr (.inl h), by rw [h]; exact hyp⟩
        · rintro ⟨h | h | h, h'⟩
          · exact .inl h
          · exact .inr h
          · exact absurd h h'
    simp only [step]
    split
    · exact B _ rfl rfl rfl
    · split
      · split
        · refine ⟨((grows_unlock _ _).trans (grows_unlock _ _)).trans (grows_unlock _ _), ((H.unlock _).unlock _).unlock _, trivial,
            Locks.release rfl (fun n => n = x.l ∨ n = x.y ∨ n = p) ?_ ?_ ?_ K⟩
          · intro n _
            simp only [mod_node]
            by_cases a : n = x.l
            · rw [if_pos a]; simp [a]
            · rw [if_neg a]
              by_cases b : n = p
              · rw [if_pos b]; simp [b]
              · rw [if_neg b]
                by_cases d : n = x.y
                · rw [if_pos d]; simp [d]
                · rw [if_neg d]; simp [a, b, d]
          · rintro n (h | h | h) <;> simp [holds, h]
          · intro n; simp [holds]; exact fun h h' h'' => (h.resolve_left h').resolve_left h''
        · exact B _ rfl rfl rfl
      · rename_i idx hi
        split
        · refine R _ rfl ⟨⟨h1.al, h1.ay, h1.ar, h1.ht⟩, h2, h3, fun i z hz => ?_⟩
          obtain ⟨i1, i2, i3⟩ := findChild_some hi
          rcases insertStores_child (by omega) hz with rfl | ⟨j, _, rfl⟩
          · exact .inr ⟨h1.ay, by rw [h1.ht, h3]⟩
          · exact (H.node p h2).cells j
        · exact WPost.inode H h1 h2 h3 K _ rfl rfl rfl
  | ins x p todo =>
    obtain ⟨h1, h2, h3, h4⟩ := ok
    have hlp : x.l ≠ p := by intro e; rw [← e] at h3; omega
    have hyp : x.y ≠ p := by intro e; have := h1.ht; rw [e] at this; omega
    cases todo with
    | nil =>
      simp only [step]
      have H1 : WH (s.mod x.y (fun z => { z with parent := p })) := by
        refine H.mod rfl fun hn => ?_
        have N := H.node _ hn
        exact ⟨.inr ⟨h2, by show (s.node p).ht = (s.node x.y).ht + 1; rw [h1.ht, h3]⟩, N.cells, N.next, N.low⟩
      have g : Grows s ((((s.mod x.y (fun z => { z with parent := p })).mod x.y Node.unlock).mod p Node.unlock).mod x.l Node.unlock) :=
        (grows_mod _ _ _ rfl).trans (((grows_unlock _ _).trans (grows_unlock _ _)).trans (grows_unlock _ _))
      refine ⟨g, ((H1.unlock _).unlock _).unlock _, h1.ar.mono g.fresh, Locks.release rfl (fun n => n = x.l ∨ n = x.y ∨ n = p) ?_ ?_ ?_ K⟩
      · intro n _
        simp only [mod_node]
        by_cases a : n = x.l
        · rw [if_pos a]; simp [a]
        · rw [if_neg a]
          by_cases b : n = p
          · rw [if_pos b]; simp [b]
          · rw [if_neg b]
            by_cases d : n = x.y
            · rw [if_pos d]; simp [d]
            · rw [if_neg d, if_neg d]; simp [a, b, d]
      · rintro n (h | h | h) <;> simp [holds, h]
      · intro n; simp [holds]; exact fun h h' h'' => (h.resolve_left h').resolve_left h''
    | cons st todo =>
      simp only [step]
      have g := grows_mod s p (fun n => { n with arr := st.apply n.arr }) rfl
      refine ⟨g, H.mod rfl fun hn => ?_, ?_, Locks.release rfl (fun _ => False) ?_ (fun _ h => h.elim) (fun n => by simp [holds]) K⟩
      · have N := H.node p hn
        refine ⟨N.par, fun i => ?_, N.next, N.low⟩
        show (st.apply (s.node p).arr).child i = 0 ∨ Al s ((st.apply (s.node p).arr).child i) ∧ (s.node ((st.apply (s.node p).arr).child i)).ht + 1 = (s.node p).ht
        cases st with
        | key j z => exact N.cells i
        | nkeys j => exact N.cells i
        | child j z =>
          simp only [Store.apply, upd]
          split
          · exact h4 j z (by simp)
          · exact N.cells i
      · exact WOk.mono (c := .ins x p todo) g ⟨h1, h2, h3, fun i z hz => h4 i z (List.mem_cons_of_mem _ hz)⟩
      · intro n _
        rw [mod_node]
        split
        · rename_i e; simp [e]
        · simp
  | done o r => exact R _ rfl trivial
  | fail o e => exact R _ rfl trivial

/-- The machine, whatever has happened. -/
structure WInv (s : St V) : Prop where
  H : WH s.heap
  ok : ∀ i, WOk s.heap (s.pc i)
  hold : ∀ i n, n ∈ holds (s.pc i) → Al s.heap n ∧ (s.heap.node n).locked = true
  held : ∀ n, Al s.heap n → (s.heap.node n).locked = true → ∃ i, n ∈ holds (s.pc i)
  excl : ∀ i j n, n ∈ holds (s.pc i) → n ∈ holds (s.pc j) → i = j

theorem init_weak : WInv (init : St V) := by
  refine ⟨⟨⟨by simp [init], by simp [init]⟩, fun n hn => ⟨.inl rfl, fun _ => .inl rfl, .inl rfl, by simp [init]⟩⟩, fun _ => trivial, ?_, ?_, ?_⟩
  · intro i n h; simp [init, holds] at h
  · intro n _ h; simp [init] at h
  · intro i j n h; simp [init, holds] at h

theorem WInv.post {s : St V} (I : WInv s) {i : Nat} {h' : Heap V} {c' : Pc V} (Q : WPost s.heap (s.pc i) h' c') :
    WInv ⟨h', upd s.pc i c'⟩ := by
  have pcj : ∀ j, j ≠ i → (upd s.pc i c') j = s.pc j := fun j h => upd_ne _ _ _ h
  have pci : (upd s.pc i c') i = c' := upd_same _ _ _
  have L := Q.L
  have nin : ∀ j n, j ≠ i → n ∈ holds (s.pc j) → n ∉ holds (s.pc i) ∧ n ∉ holds c' := by
    intro j n hj hn
    have a : n ∉ holds (s.pc i) := fun h => hj (I.excl j i n hn h)
    refine ⟨a, fun h => ?_⟩
    rcases (L.new n h).2.2 with g | g
    · exact a g
    · exact g (I.hold j n hn)
  refine ⟨Q.H, ?_, ?_, ?_, ?_⟩
  · intro j
    by_cases c : j = i
    · simp only [c, pci]; exact Q.ok
    · simp only [pcj j c]; exact (I.ok j).mono Q.g
  · intro j n hn
    by_cases c : j = i
    · simp only [c, pci] at hn
      exact ⟨(L.new n hn).1, (L.new n hn).2.1⟩
    · simp only [pcj j c] at hn
      obtain ⟨a, b⟩ := I.hold j n hn
      obtain ⟨n1, n2⟩ := nin j n c hn
      refine ⟨a.mono Q.g.fresh, ?_⟩
      show (h'.node n).locked = true
      rw [L.frame n a n1 n2]; exact b
  · intro n hn hk
    rcases L.old n hn hk with h | ⟨a, b, d⟩
    · exact ⟨i, by simp only [pci]; exact h⟩
    · obtain ⟨j, hj⟩ := I.held n a b
      have : j ≠ i := by intro e; rw [e] at hj; exact d hj
      exact ⟨j, by simp only [pcj j this]; exact hj⟩
  · intro j k n hj hk
    by_cases c : j = i <;> by_cases d : k = i
    · rw [c, d]
    · simp only [c, pci] at hj
      simp only [pcj k d] at hk
      exact absurd hj (nin k n d hk).2
    · simp only [d, pci] at hk
      simp only [pcj j c] at hj
      exact absurd hk (nin j n c hj).2
    · simp only [pcj j c] at hj
      simp only [pcj k d] at hk
      exact I.excl j k n hj hk

theorem WInv.act {strict main : Bool} {s : St V} (I : WInv s) (a : Act V) : WInv (act strict main s a) := by
  cases a with
  | call i o =>
    have C : holds (s.pc i) = [] → WInv ⟨s.heap, upd s.pc i (.climb o s.heap.root)⟩ := fun h =>
      I.post ⟨Grows.refl _, I.H, I.H.root, Locks.keep h (I.hold i)⟩
    simp only [Index.act]
    split
    · rename_i h; exact C (by rw [h]; rfl)
    · rename_i h; exact C (by rw [h]; rfl)
    · exact I
  | run i => exact I.post (step_weak I.H (I.ok i) (I.hold i))

theorem exec_weak {strict main : Bool} {σ : Nat → St V} {α : Nat → Act V} (E : Exec strict main σ α) : ∀ n, WInv (σ n)
  | 0 => by rw [E.start]; exact init_weak
  | n + 1 => by rw [E.next]; exact (exec_weak E n).act _

/-! ## Waiting -/

theorem weak_moves {strict main : Bool} {s : Heap V} (H : WH s) {c : Pc V} (ok : WOk s c)
    (hc : c ≠ .idle ∧ (∀ o x, c ≠ .done o x) ∧ ∀ o e, c ≠ .fail o e) (hw : waits s c = none) : (step strict main s c).2 ≠ c := by
  cases c with
  | idle => exact absurd rfl hc.1
  | done o x => exact absurd rfl (hc.2.1 o x)
  | fail o e => exact absurd rfl (hc.2.2 o e)
  | climb o p =>
    simp only [step]
    split
    · simp
    · rename_i h0
      intro e
      injection e with _ e
      rcases (H.node p ok).par with h | ⟨_, h⟩
      · exact h0 h
      · rw [e] at h; omega
  | stab o r p =>
    simp only [waits] at hw
    simp only [step]
    split at hw
    · simp at hw
    · rename_i h; rw [if_neg h]
      split
      · cases o <;> simp
      · simp
  | nk o r p w => simp [step]
  | cmp o r p w a b =>
    simp only [step]
    split
    · split
      · simp; omega
      · split
        · simp
        · simp; omega
    · simp
  | chld o r p w i => simp only [step]; split <;> simp
  | chk o r p w c => simp only [step]; split <;> simp
  | chk2 o r p w => simp only [step]; split <;> simp
  | look o l =>
    simp only [waits] at hw
    simp only [step]
    split at hw
    · simp at hw
    · rename_i h; rw [if_neg h]; split <;> simp
  | nxt o l => simp only [step]; split <;> simp
  | adv o r h l =>
    cases h with
    | zero => simp [step]
    | succ h => simp only [step]; split <;> simp
  | sect o r l =>
    obtain ⟨_, _, _, t, v, rfl⟩ := ok
    simp only [waits] at hw
    simp only [step]
    split at hw
    · simp at hw
    · rename_i h; rw [if_neg h]
      split
      · simp
      · split
        · simp
        · split <;> simp
  | par c =>
    simp only [step]
    split
    · simp
    · split
      · split
        · simp
        · split
          · split <;> simp
          · simp
      · simp
  | lck c p =>
    simp only [waits] at hw
    simp only [step]
    split at hw
    · simp at hw
    · rename_i h; rw [if_neg h]; simp
  | rechk c p =>
    simp only [step]
    split
    · simp
    · split
      · split <;> simp
      · split <;> simp
  | ins c p todo =>
    cases todo with
    | nil => simp [step]
    | cons st todo => simp [step]

theorem WInv.run_moves {strict main : Bool} {s : St V} (I : WInv s) {i : Nat} (hc : InCall s i) (hw : waits s.heap (s.pc i) = none) :
    Index.act strict main s (.run i) ≠ s := by
  intro e
  have : (Index.act strict main s (.run i)).pc i = s.pc i := by rw [e]
  simp only [Index.act, upd_same] at this
  exact weak_moves I.H (I.ok i) hc hw this

/-- Whoever holds the lock of a node, or somebody further up, can move. -/
theorem WInv.holder_moves {s : St V} (I : WInv s) : ∀ k n, Al s.heap n → (s.heap.node n).locked = true →
    s.heap.fresh ≤ (s.heap.node n).ht + k → ∃ j, holds (s.pc j) ≠ [] ∧ waits s.heap (s.pc j) = none := by
  intro k
  induction k with
  | zero => intro n hn _ h; have := (I.H.node n hn).low; omega
  | succ k ih =>
    intro n hn hl h
    obtain ⟨j, hj⟩ := I.held n hn hl
    have hne : holds (s.pc j) ≠ [] := by intro e; rw [e] at hj; simp at hj
    by_cases hw : waits s.heap (s.pc j) = none
    · exact ⟨j, hne, hw⟩
    · cases hp : s.pc j with
      | lck c p =>
        have ok := I.ok j
        rw [hp] at ok hw hj
        simp only [waits] at hw
        have hlk : (s.heap.node p).locked = true := by
          split at hw
          · assumption
          · exact absurd rfl hw
        refine ih p ok.2.1 hlk ?_
        have e : (s.heap.node n).ht = (s.heap.node c.l).ht := by
          simp only [holds, List.mem_cons, List.not_mem_nil, or_false] at hj
          rcases hj with g | g <;> rw [g]
          exact ok.1.ht
        have := ok.2.2
        omega
      | _ => rw [hp] at hne hw; simp [holds, waits] at hne hw

end Verif.Index
