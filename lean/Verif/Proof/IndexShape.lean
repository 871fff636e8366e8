import Verif.Proof.IndexArr
set_option linter.unusedSimpArgs false
set_option linter.unusedVariables false
/-!
The shape of the index in every execution: pointers, heights and locks.  Nothing here is about the order of keys.
-/
namespace Verif.Index
open Verif.Internode
variable {V : Type}

/-- Node `n` has been allocated. -/
def Al (s : Heap V) (n : Nat) : Prop := 0 < n ∧ n < s.fresh

/-- The nodes a thread has locked. -/
def holds : Pc V → List Nat
  | .par c => [c.l, c.y]
  | .lck c _ => [c.l, c.y]
  | .rechk c p => [c.l, c.y, p]
  | .ins c p _ => [c.l, c.y, p]
  | _ => []

/-- The new node that a thread is about to put into the index. -/
def right : Pc V → Nat → Prop
  | .par c, n => n = c.y
  | .lck c _, n => n = c.y
  | .rechk c _, n => n = c.y
  | .ins c _ _, n => n = c.y
  | _, _ => False

/-- The internode into which a thread is inserting. -/
def busy : Pc V → Nat → Prop
  | .ins _ p _, n => n = p
  | _, _ => False

/-- The heap; `O` are the new nodes not yet in the index, `B` the internodes in the middle of an insertion. -/
structure HInv (main : Bool) (s : Heap V) (O B : Nat → Prop) : Prop where
  topAl : Al s s.top
  topPar : (s.node s.top).parent = 0
  topRoot : (s.node s.top).rootf = true
  topO : ¬ O s.top
  rootAl : Al s s.root
  rootTop : main = true → s.root = s.top
  kid : ∀ n, Al s n → 0 < (s.node n).ht → ∀ i, i ≤ (s.node n).base.nkeys →
    Al s ((s.node n).base.child i) ∧ (s.node ((s.node n).base.child i)).parent = n ∧
      (s.node ((s.node n).base.child i)).ht + 1 = (s.node n).ht
  inj : ∀ n, Al s n → 0 < (s.node n).ht → ∀ i j, i ≤ (s.node n).base.nkeys → j ≤ (s.node n).base.nkeys →
    (s.node n).base.child i = (s.node n).base.child j → i = j
  nk : ∀ n, Al s n → (s.node n).base.nkeys ≤ inodeWidth
  par : ∀ c, Al s c → (s.node c).parent ≠ 0 → Al s (s.node c).parent ∧ 0 < (s.node (s.node c).parent).ht ∧
    ∃ i, i ≤ (s.node (s.node c).parent).base.nkeys ∧ (s.node (s.node c).parent).base.child i = c
  cells : ∀ n, Al s n → ∀ i, (s.node n).arr.child i = 0 ∨
    Al s ((s.node n).arr.child i) ∧ (s.node ((s.node n).arr.child i)).ht + 1 = (s.node n).ht
  next : ∀ n, Al s n → (s.node n).next = 0 ∨ Al s (s.node n).next ∧ (s.node (s.node n).next).ht = 0
  orph : ∀ n, Al s n → (s.node n).parent = 0 → n = s.top ∨ O n
  same : ∀ n, Al s n → ¬ B n → (s.node n).arr = (s.node n).base
  low : ∀ n, Al s n → (s.node n).ht ≤ (s.node s.top).ht
  spl : ∀ n, Al s n → (s.node n).splitting = true → (s.node n).locked = true

/-- The local variables of a propagation. -/
structure CtxOk (main : Bool) (s : Heap V) (c : Ctx V) : Prop where
  al : Al s c.l
  ay : Al s c.y
  ar : Al s c.r
  ne : c.l ≠ c.y
  ht : (s.node c.y).ht = (s.node c.l).ht
  py : (s.node c.y).parent = 0
  sl : (s.node c.l).splitting = true
  sy : (s.node c.y).splitting = true
  flags : if main then c.layer = false ∧ (c.l = s.top → c.main = true) else c.main = false ∧ (c.l = s.top → c.layer = true)
  stale : c.stale = 0
  op : ∃ t v, c.o = .insert t v

/-- A thread. -/
def PcOk (main : Bool) (s : Heap V) : Pc V → Prop
  | .idle => True
  | .climb _ p => Al s p
  | .stab _ r p => Al s r ∧ Al s p
  | .nk _ r p _ => Al s r ∧ Al s p ∧ 0 < (s.node p).ht
  | .cmp _ r p _ _ _ => Al s r ∧ Al s p ∧ 0 < (s.node p).ht
  | .chld _ r p _ _ => Al s r ∧ Al s p ∧ 0 < (s.node p).ht
  | .chk _ r p _ c => Al s r ∧ Al s p ∧ 0 < (s.node p).ht ∧ Al s c
  | .chk2 _ r p _ => Al s r ∧ Al s p ∧ 0 < (s.node p).ht
  | .look _ l => Al s l ∧ (s.node l).ht = 0
  | .nxt _ l => Al s l ∧ (s.node l).ht = 0
  | .adv o r _ l => Al s r ∧ Al s l ∧ (s.node l).ht = 0 ∧ ∃ t v, o = .insert t v
  | .sect o r l => Al s r ∧ Al s l ∧ (s.node l).ht = 0 ∧ ∃ t v, o = .insert t v
  | .par c => CtxOk main s c
  | .lck c p => CtxOk main s c ∧ Al s p ∧ (s.node p).ht = (s.node c.l).ht + 1
  | .rechk c p => CtxOk main s c ∧ Al s p ∧ (s.node p).ht = (s.node c.l).ht + 1 ∧ (s.node p).splitting = false
  | .ins c p todo => CtxOk main s c ∧ Al s p ∧ (s.node p).ht = (s.node c.l).ht + 1 ∧ (s.node p).splitting = false ∧
      (s.node c.l).parent = p ∧
      ∃ idx done, idx ≤ (s.node p).base.nkeys ∧ (s.node p).base.nkeys < inodeWidth ∧ (s.node p).base.child idx = c.l ∧
        insertStores (s.node p).base idx c.sep c.y = done ++ todo ∧ (s.node p).arr = done.foldl Store.apply (s.node p).base
  | .done _ _ => True
  | .fail _ _ => False

/-- What a thread that goes from `c` to `c'` may do to the heap. -/
structure Legal (s : Heap V) (c : Pc V) (s' : Heap V) (c' : Pc V) : Prop where
  fresh : s.fresh ≤ s'.fresh
  ht : ∀ n, Al s n → (s'.node n).ht = (s.node n).ht
  lo : ∀ n, Al s n → (s'.node n).lo = (s.node n).lo
  frame : ∀ n, Al s n → n ∉ holds c → n ∉ holds c' → (s'.node n).locked = (s.node n).locked ∧
    (s'.node n).splitting = (s.node n).splitting ∧ (s'.node n).arr = (s.node n).arr ∧ (s'.node n).base = (s.node n).base
  par : ∀ n, Al s n → (s'.node n).parent = (s.node n).parent ∨ (s.node n).parent ∈ holds c ∨ n ∈ holds c
  top : s'.top = s.top ∨ s.fresh ≤ s'.top
  new : ∀ n, n ∈ holds c' → Al s' n ∧ (s'.node n).locked = true ∧ (n ∈ holds c ∨ ¬ (Al s n ∧ (s.node n).locked = true))
  old : ∀ n, Al s' n → (s'.node n).locked = true → n ∈ holds c' ∨ Al s n ∧ (s.node n).locked = true ∧ n ∉ holds c

theorem Al.mono {s s' : Heap V} {n : Nat} (h : Al s n) (hf : s.fresh ≤ s'.fresh) : Al s' n := ⟨h.1, by have := h.2; omega⟩

theorem mod_node (s : Heap V) (n : Nat) (f : Node V → Node V) (m : Nat) :
    (s.mod n f).node m = if m = n then f (s.node n) else s.node m := rfl
@[simp] theorem mod_fresh (s : Heap V) (n : Nat) (f : Node V → Node V) : (s.mod n f).fresh = s.fresh := rfl
@[simp] theorem mod_root (s : Heap V) (n : Nat) (f : Node V → Node V) : (s.mod n f).root = s.root := rfl
@[simp] theorem mod_top (s : Heap V) (n : Nat) (f : Node V → Node V) : (s.mod n f).top = s.top := rfl

section unlock
variable (n : Node V)
@[simp] theorem unlock_ht : n.unlock.ht = n.ht := by unfold Node.unlock; split <;> rfl
@[simp] theorem unlock_lo : n.unlock.lo = n.lo := by unfold Node.unlock; split <;> rfl
@[simp] theorem unlock_ents : n.unlock.ents = n.ents := by unfold Node.unlock; split <;> rfl
@[simp] theorem unlock_next : n.unlock.next = n.next := by unfold Node.unlock; split <;> rfl
@[simp] theorem unlock_arr : n.unlock.arr = n.arr := by unfold Node.unlock; split <;> rfl
@[simp] theorem unlock_base : n.unlock.base = n.arr := by unfold Node.unlock; split <;> rfl
@[simp] theorem unlock_parent : n.unlock.parent = n.parent := by unfold Node.unlock; split <;> rfl
@[simp] theorem unlock_locked : n.unlock.locked = false := by unfold Node.unlock; split <;> rfl
@[simp] theorem unlock_splitting : n.unlock.splitting = false := by
  unfold Node.unlock; split
  · rfl
  · rename_i h; simpa using h
@[simp] theorem unlock_rootf : n.unlock.rootf = (n.rootf && !n.splitting) := by
  unfold Node.unlock; split
  · rename_i h; simp [h]
  · rename_i h; simp [h]
@[simp] theorem unlock_vs : n.unlock.vs = if n.splitting then n.vs + 1 else n.vs := by unfold Node.unlock; split <;> rfl
@[simp] theorem unlock_vi : n.unlock.vi = if n.splitting then 0 else n.vi + 1 := by unfold Node.unlock; split <;> rfl
end unlock

/-- A thread is not disturbed by a legal step of another. -/
theorem PcOk.frame {main : Bool} {s s' : Heap V} {c c' d : Pc V} (L : Legal s c s' c') (K : ∀ n, n ∈ holds c → Al s n)
    (hd : ∀ n, n ∈ holds d → Al s n ∧ (s.node n).locked = true ∧ n ∉ holds c) (h : PcOk main s d) : PcOk main s' d := by
  have A : ∀ {n}, Al s n → Al s' n := fun h => h.mono L.fresh
  have hh := L.ht
  have hd' : ∀ n, n ∈ holds d → n ∉ holds c' := by
    intro n hn hn'
    obtain ⟨a, b, e⟩ := hd n hn
    rcases (L.new n hn').2.2 with h | h
    · exact e h
    · exact h ⟨a, b⟩
  have F : ∀ n, n ∈ holds d → (s'.node n).splitting = (s.node n).splitting ∧ (s'.node n).arr = (s.node n).arr ∧
      (s'.node n).base = (s.node n).base := fun n hn => (L.frame n (hd n hn).1 (hd n hn).2.2 (hd' n hn)).2
  have P0 : ∀ n, n ∈ holds d → (s.node n).parent ∉ holds c → (s'.node n).parent = (s.node n).parent := by
    intro n hn hp
    rcases L.par n (hd n hn).1 with h | h | h
    · exact h
    · exact absurd h hp
    · exact absurd h (hd n hn).2.2
  have C : ∀ x : Ctx V, x.l ∈ holds d → x.y ∈ holds d → CtxOk main s x → CtxOk main s' x := by
    intro x hl hy h
    refine ⟨A h.al, A h.ay, A h.ar, h.ne, ?_, ?_, ?_, ?_, ?_, h.stale, h.op⟩
    · rw [hh _ h.ay, hh _ h.al, h.ht]
    · rw [P0 _ hy, h.py]
      rw [h.py]; intro hc
      have := (K 0 hc).1; omega
    · rw [(F _ hl).1]; exact h.sl
    · rw [(F _ hy).1]; exact h.sy
    · have hf := h.flags
      have ht : x.l = s'.top → x.l = s.top := by
        intro e
        rcases L.top with h1 | h1
        · rw [e, h1]
        · have := h.al.2; omega
      split at hf
      · rename_i m; rw [if_pos m]; exact ⟨hf.1, fun e => hf.2 (ht e)⟩
      · rename_i m; rw [if_neg m]; exact ⟨hf.1, fun e => hf.2 (ht e)⟩
  cases d with
  | idle => trivial
  | climb o p => exact A h
  | stab o r p => exact ⟨A h.1, A h.2⟩
  | nk o r p w => exact ⟨A h.1, A h.2.1, by rw [hh _ h.2.1]; exact h.2.2⟩
  | cmp o r p w a b => exact ⟨A h.1, A h.2.1, by rw [hh _ h.2.1]; exact h.2.2⟩
  | chld o r p w i => exact ⟨A h.1, A h.2.1, by rw [hh _ h.2.1]; exact h.2.2⟩
  | chk o r p w c => exact ⟨A h.1, A h.2.1, by rw [hh _ h.2.1]; exact h.2.2.1, A h.2.2.2⟩
  | chk2 o r p w => exact ⟨A h.1, A h.2.1, by rw [hh _ h.2.1]; exact h.2.2⟩
  | look o l => exact ⟨A h.1, by rw [hh _ h.1]; exact h.2⟩
  | nxt o l => exact ⟨A h.1, by rw [hh _ h.1]; exact h.2⟩
  | adv o r h' l => exact ⟨A h.1, A h.2.1, by rw [hh _ h.2.1]; exact h.2.2.1, h.2.2.2⟩
  | sect o r l => exact ⟨A h.1, A h.2.1, by rw [hh _ h.2.1]; exact h.2.2.1, h.2.2.2⟩
  | par x => exact C x (by simp [holds]) (by simp [holds]) h
  | lck x p =>
    exact ⟨C x (by simp [holds]) (by simp [holds]) h.1, A h.2.1, by rw [hh _ h.2.1, hh _ h.1.al]; exact h.2.2⟩
  | rechk x p =>
    exact ⟨C x (by simp [holds]) (by simp [holds]) h.1, A h.2.1, by rw [hh _ h.2.1, hh _ h.1.al]; exact h.2.2.1,
      by rw [(F p (by simp [holds])).1]; exact h.2.2.2⟩
  | ins x p todo =>
    obtain ⟨h1, h2, h3, h4, h5, idx, dn, e1, e2, e3, e4, e5⟩ := h
    obtain ⟨f1, f2, f3⟩ := F p (by simp [holds])
    refine ⟨C x (by simp [holds]) (by simp [holds]) h1, A h2, by rw [hh _ h2, hh _ h1.al]; exact h3, by rw [f1]; exact h4, ?_,
      idx, dn, by rw [f3]; exact e1, by rw [f3]; exact e2, by rw [f3]; exact e3, by rw [f3]; exact e4, by rw [f2, f3]; exact e5⟩
    rw [P0 x.l (by simp [holds])]
    · exact h5
    · rw [h5]; exact (hd p (by simp [holds])).2.2
  | done o r => trivial
  | fail o e => exact h

/-- A step that leaves the heap alone and holds nothing is legal. -/
theorem Legal.idle {s : Heap V} {c c' : Pc V} (h : holds c = []) (h' : holds c' = []) : Legal s c s c' := by
  refine ⟨Nat.le_refl _, fun _ _ => rfl, fun _ _ => rfl, fun _ _ _ _ => ⟨rfl, rfl, rfl, rfl⟩, fun _ _ => .inl rfl, .inl rfl, ?_, ?_⟩
  · rw [h']; simp
  · intro n h1 h2; right; rw [h]; exact ⟨h1, h2, by simp⟩

/-- A step that leaves the heap alone and keeps what it holds is legal. -/
theorem Legal.keep {s : Heap V} {c c' : Pc V} (h : holds c = holds c') (K : ∀ n, n ∈ holds c → Al s n ∧ (s.node n).locked = true) :
    Legal s c s c' := by
  refine ⟨Nat.le_refl _, fun _ _ => rfl, fun _ _ => rfl, fun _ _ _ _ => ⟨rfl, rfl, rfl, rfl⟩, fun _ _ => .inl rfl, .inl rfl, ?_, ?_⟩
  · rw [← h]; intro n hn; exact ⟨(K n hn).1, (K n hn).2, .inl hn⟩
  · intro n h1 h2
    by_cases hn : n ∈ holds c'
    · exact .inl hn
    · right; rw [h]; exact ⟨h1, h2, hn⟩

end Verif.Index
