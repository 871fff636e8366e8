import Verif.Proof.IndexLimit5
set_option linter.unusedSimpArgs false
set_option linter.unusedVariables false
/-!
After a split has been given up: the new leaf has no parent, and never gets one.

Thread 1 goes on alone and fills that leaf.  The insert that has to split it fails.
-/
namespace Verif.Index
open Verif.Internode
variable {V : Type}

/-- Thread 1 calls inserts of 64-bit keys, or runs. -/
def Alone : Act V → Prop
  | .call i o => i = 1 ∧ o.key < 2 ^ 64
  | .run i => i = 1

/-- `s'` is reached from `s` by steps of thread 1. -/
def Go (s s' : St V) : Prop := ∃ l : List (Act V), (∀ a ∈ l, Alone a) ∧ run false true s l = s'

theorem Go.refl (s : St V) : Go s s := ⟨[], by simp, rfl⟩

theorem Go.trans {a b c : St V} (h : Go a b) (h' : Go b c) : Go a c := by
  obtain ⟨l, l1, rfl⟩ := h
  obtain ⟨l', l2, rfl⟩ := h'
  refine ⟨l ++ l', fun x hx => ?_, by simp [run, List.foldl_append]⟩
  rcases List.mem_append.1 hx with hx | hx
  · exact l1 x hx
  · exact l2 x hx

variable {p0 : Pc V}

theorem Go.to {s : St V} {c c' : Pc V} {h h' : Heap V} (g : Go s (two p0 h c)) (e : step false true h c = (h', c')) : Go s (two p0 h' c') := by
  refine g.trans ⟨[.run 1], by simp [Alone], ?_⟩
  have : (two p0 h' c').pc = upd (two p0 h c).pc 1 c' := by
    funext i; simp only [two, upd]; split <;> rfl
  simp only [run, List.foldl_cons, List.foldl_nil, act, two_pc1, two_heap, e, ← this]
  rfl

theorem Go.call {s : St V} {c : Pc V} {h : Heap V} (g : Go s (two p0 h c)) (hc : Rest c) (o : Op V) (ho : o.key < 2 ^ 64) :
    Go s (two p0 h (.climb o h.root)) := by
  refine g.trans ⟨[.call 1 o], fun x hx => by rw [List.mem_singleton.1 hx]; exact ⟨rfl, ho⟩, ?_⟩
  have : (two p0 h (.climb o h.root)).pc = upd (two p0 h c).pc 1 (.climb o h.root) := by
    funext i; simp only [two, upd]; split <;> rfl
  simp only [run, List.foldl_cons, List.foldl_nil]
  rcases hc with rfl | ⟨a, b, rfl⟩ <;> simp only [act, two_pc1] <;> rw [two_heap, ← this] <;> rfl

variable {s : St V} {h : Heap V}

/-- The binary search goes to the end. -/
theorem Go.search {o : Op V} {r q : Nat} {w : Nat × Nat} (h1 : ∀ j, j < (h.node q).arr.nkeys → (h.node q).arr.ikey j < o.key) :
    ∀ (n a : Nat), (h.node q).arr.nkeys - a ≤ n → a ≤ (h.node q).arr.nkeys → Go s (two p0 h (.cmp o r q w a (h.node q).arr.nkeys)) →
      Go s (two p0 h (.chld o r q w (h.node q).arr.nkeys))
  | n, a, hn, ha, g => by
    by_cases hlt : a < (h.node q).arr.nkeys
    · cases n with
      | zero => omega
      | succ n =>
        have := h1 ((a + (h.node q).arr.nkeys) / 2) (by omega)
        refine Go.search h1 n ((a + (h.node q).arr.nkeys) / 2 + 1) (by omega) (by omega) (g.to ?_)
        simp only [step]
        rw [if_pos hlt, if_neg (by omega), if_neg (by omega)]
    · refine g.to ?_
      simp only [step]
      rw [if_neg hlt]
      have : a = (h.node q).arr.nkeys := by omega
      rw [this]

/-- An internode nobody is working at. -/
structure Free (n : Node V) : Prop where
  locked : n.locked = false
  spl : n.splitting = false
  ht : 0 < n.ht

theorem Go.descend {o : Op V} {r q x : Nat} (F : Free (h.node q)) (hx : (h.node q).arr.child (h.node q).arr.nkeys = x) (h0 : x ≠ 0)
    (h1 : ∀ j, j < (h.node q).arr.nkeys → (h.node q).arr.ikey j < o.key) (g : Go s (two p0 h (.stab o r q))) :
    Go s (two p0 h (.stab o r x)) := by
  have g1 : Go s (two p0 h (.nk o r q ((h.node q).vs, (h.node q).vi))) := g.to (by
    have := F.ht
    simp only [step, F.locked, Bool.false_eq_true, if_false]
    rw [if_neg (by omega)])
  have g2 : Go s (two p0 h (.cmp o r q ((h.node q).vs, (h.node q).vi) 0 (h.node q).arr.nkeys)) := g1.to rfl
  have g3 := Go.search h1 _ _ (Nat.le_refl _) (Nat.zero_le _) g2
  have g4 : Go s (two p0 h (.chk o r q ((h.node q).vs, (h.node q).vi) x)) := g3.to (by
    simp only [step, hx]; rw [if_neg h0])
  refine g4.to ?_
  simp [step, changed, F.spl]

/-- The chain of internodes from `x` up to the root: each is the last child of the next, and all keys are below `T`. -/
def Way (T : Nat) (h : Heap V) : Nat → Nat → Prop
  | 0, x => Free (h.node x) ∧ x ≠ 0 ∧ (h.node x).parent = 0 ∧ h.root = x
  | d + 1, x => Free (h.node x) ∧ x ≠ 0 ∧ ∃ q, (h.node q).arr.child (h.node q).arr.nkeys = x ∧
      (∀ i, i < (h.node q).arr.nkeys → (h.node q).arr.ikey i < T) ∧ Way T h d q

theorem Way.free {T : Nat} : ∀ {d x : Nat}, Way T h d x → Free (h.node x) ∧ x ≠ 0
  | 0, _, w => ⟨w.1, w.2.1⟩
  | _ + 1, _, w => ⟨w.1, w.2.1⟩

theorem Way.root {T : Nat} : ∀ {d x : Nat}, Way T h d x → (h.node h.root).parent = 0
  | 0, _, w => by rw [w.2.2.2]; exact w.2.2.1
  | d + 1, _, ⟨_, _, q, _, _, w⟩ => Way.root w

theorem Way.congr {T : Nat} {h' : Heap V} (hr : h'.root = h.root) (e : ∀ q, 0 < (h.node q).ht → h'.node q = h.node q) :
    ∀ {d x : Nat}, Way T h d x → Way T h' d x
  | 0, x, w => by
    have := e x w.1.ht
    exact ⟨by rw [this]; exact w.1, w.2.1, by rw [this]; exact w.2.2.1, by rw [hr]; exact w.2.2.2⟩
  | d + 1, x, ⟨w1, w2, q, w3, w4, w5⟩ => by
    have := e x w1.ht
    have eq := e q w5.free.1.ht
    exact ⟨by rw [this]; exact w1, w2, q, by rw [eq]; exact w3, by rw [eq]; exact w4, Way.congr hr e w5⟩

theorem Go.down {T : Nat} {o : Op V} (hT : T ≤ o.key) {r : Nat} :
    ∀ {d x : Nat}, Way T h d x → Go s (two p0 h (.stab o r h.root)) → Go s (two p0 h (.stab o r x))
  | 0, x, w, g => by have := w.2.2.2; rw [this] at g; exact g
  | d + 1, x, ⟨_, w2, q, w3, w4, w5⟩, g =>
    Go.descend w5.free.1 w3 w2 (fun j hj => by have := w4 j hj; omega) (Go.down hT w5 g)

/-- The chain of `Up`, in a heap in which no internode is locked. -/
theorem Up.way {T : Nat} {c : Ctx V} (C : Hush h c [] 0) (h0 : (h.node c.l).ht = 0) : ∀ {d x : Nat}, Al h x → 0 < (h.node x).ht → Up T h d x → Way T h d x
  | 0, x, hx, hh, u => by
    have hu := C.unl1 h0 hx hh (by simp)
    exact ⟨⟨hu, C.nospl hx hu, hh⟩, by have := hx.1; omega, u.1, u.2⟩
  | d + 1, x, hx, hh, ⟨q, u1, u2, u3, u4, u5⟩ => by
    have hu := C.unl1 h0 hx hh (by simp)
    obtain ⟨hq1, hq2⟩ := C.H.parent hx u1 u2
    exact ⟨⟨hu, C.nospl hx hu, hh⟩, by have := hx.1; omega, q, u3, u4, Up.way C h0 hq1 (by omega) u5⟩

theorem Way.mono {T T' : Nat} (hT : T ≤ T') : ∀ {d x : Nat}, Way T h d x → Way T' h d x
  | 0, _, w => w
  | d + 1, _, ⟨w1, w2, q, w3, w4, w5⟩ => ⟨w1, w2, q, w3, fun i hi => by have := w4 i hi; omega, Way.mono hT w5⟩

/-- A leaf `y` without a parent, behind the last leaf of the index. -/
structure Orphan (T : Nat) (h : Heap V) (l y p d : Nat) : Prop where
  way : Way T h d p
  last : (h.node p).arr.child (h.node p).arr.nkeys = l
  keys : ∀ i, i < (h.node p).arr.nkeys → (h.node p).arr.ikey i < T
  l0 : l ≠ 0
  y0 : y ≠ 0
  ly : l ≠ y
  hl : (h.node l).ht = 0
  hy : (h.node y).ht = 0
  ul : (h.node l).locked = false
  uy : (h.node y).locked = false
  nl : (h.node l).next = y
  ny : (h.node y).next = 0
  lo : (h.node y).lo ≤ T
  ents : ∀ e, e ∈ (h.node y).ents → e.1 < T
  par : (h.node y).parent = 0
  flag : (h.node y).rootf = false
  spl : (h.node y).splitting = false
  old : y < h.fresh

variable {T t l y p d : Nat} {v : V} {c : Pc V}

/-- An insert of a larger key comes to the leaf. -/
theorem Orphan.reach (O : Orphan T h l y p d) (ht : T ≤ t) (hk : t < 2 ^ 64) (hc : Rest c) (g : Go s (two p0 h c)) :
    Go s (two p0 h (.sect (.insert t v) h.root y)) := by
  have g1 := g.call hc (.insert t v) hk
  have g2 : Go s (two p0 h (.stab (.insert t v) h.root h.root)) := g1.to (by simp only [step]; rw [if_pos O.way.root])
  have g3 := Go.down (T := T) (o := .insert t v) ht O.way g2
  have g4 := Go.descend O.way.free.1 O.last O.l0 (fun j hj => by have := O.keys j hj; simp only [Op.key]; omega) g3
  have g5 : Go s (two p0 h (.adv (.insert t v) h.root maxHops l)) := g4.to (by simp [step, O.ul, O.hl])
  have m1 : maxHops = 126 + 1 + 1 := rfl
  rw [m1] at g5
  have g6 : Go s (two p0 h (.adv (.insert t v) h.root (126 + 1) y)) := g5.to (by
    have := O.lo
    simp only [step]
    rw [O.nl, if_pos ⟨O.y0, by simp only [Op.key]; omega⟩])
  refine g6.to ?_
  simp only [step]
  rw [O.ny, if_neg (by simp)]

/-- There is room in it. -/
theorem Orphan.insert (O : Orphan T h l y p d) (ht : T ≤ t) (hk : t < 2 ^ 64) (hc : Rest c) (hm : (h.node y).ents.length < 24)
    (g : Go s (two p0 h c)) :
    ∃ h', Go s (two p0 h' (.done (.insert t v) none)) ∧ Orphan (t + 1) h' l y p d ∧ (h'.node y).ents.length = (h.node y).ents.length + 1 := by
  have he : ∀ e, e ∈ (h.node y).ents → e.1 < t := fun e he => by have := O.ents e he; omega
  have hpy : ∀ q, 0 < (h.node q).ht → q ≠ y := fun q hq e => by rw [e, O.hy] at hq; omega
  have hyp := hpy p O.way.free.1.ht
  refine ⟨h.mod y (fun n => ({ n.lock with ents := put t v n.ents } : Node V).unlock), (O.reach (v := v) ht hk hc g).to ?_, ?_, ?_⟩
  · simp only [step, O.uy, Bool.false_eq_true, if_false]
    rw [if_neg (by rw [O.ny]; simp), lookup_above he]
    simp only
    rw [if_pos (show _ < leafWidth from hm)]
  · constructor <;> try simp only [mod_node, mod_fresh, if_neg O.ly, if_neg hyp, if_true, unlock_ht, unlock_parent, unlock_next, unlock_ents, unlock_locked,
      unlock_splitting, unlock_rootf, unlock_lo, Node.lock]
    · refine Way.congr (h := h) (by exact rfl) (fun q hq => ?_) (O.way.mono (by omega : T ≤ t + 1))
      simp only [mod_node, if_neg (hpy q hq)]
    · exact O.last
    · intro i hi; have := O.keys i hi; omega
    · exact O.l0
    · exact O.y0
    · exact O.ly
    · exact O.hl
    · exact O.hy
    · exact O.ul
    · exact O.nl
    · exact O.ny
    · have := O.lo; omega
    · rw [put_above he]; intro e hmem
      rcases List.mem_append.1 hmem with hmem | hmem
      · have := he e hmem; omega
      · rw [List.mem_singleton.1 hmem]; simp
    · exact O.par
    · simp [O.flag]
    · exact O.old
  · simp [mod_node, Node.lock, put_above he]

/-- It is full. -/
theorem Orphan.full (O : Orphan T h l y p d) (ht : T ≤ t) (hk : t < 2 ^ 64) (hc : Rest c) (hm : 24 ≤ (h.node y).ents.length)
    (g : Go s (two p0 h c)) : ∃ h', Go s (two p0 h' (.fail (.insert t v) .nullParent)) := by
  have he : ∀ e, e ∈ (h.node y).ents → e.1 < t := fun e he => by have := O.ents e he; omega
  have g1 : Go s (two p0 (splitLeaf h y) (.par ⟨.insert t v, h.root, y, h.fresh, firstKey ((h.node y).ents.drop (leafWidth / 2)), false, false, 0, 0⟩)) :=
    (O.reach (v := v) ht hk hc g).to (by
      simp only [step, O.uy, Bool.false_eq_true, if_false]
      rw [if_neg (by rw [O.ny]; simp), lookup_above he]
      simp only
      rw [if_neg (by simp only [leafWidth]; omega)]
      simp [O.flag])
  refine ⟨_, g1.to (h' := ((splitLeaf h y).mod h.fresh Node.unlock).mod y Node.unlock) ?_⟩
  have hyf : y ≠ h.fresh := by have := O.old; omega
  have e : ((splitLeaf h y).node y).parent = 0 := by simp [splitLeaf, upd, hyf, O.par]
  simp only [step]
  rw [if_neg (by decide), if_pos e]
  simp

/-- Thread 1 fills the leaf and fails. -/
theorem Orphan.fills (v : V) : ∀ (N : Nat) {h : Heap V} {T : Nat} {c : Pc V}, Orphan T h l y p d → 24 - (h.node y).ents.length ≤ N → T + N < 2 ^ 64 → Rest c →
    Go s (two p0 h c) → ∃ t h', Go s (two p0 h' (.fail (.insert t v) .nullParent))
  | N, h, T, c, O, hN, hT, hc, g => by
    by_cases hm : (h.node y).ents.length < 24
    · obtain ⟨M, rfl⟩ : ∃ M, N = M + 1 := ⟨N - 1, by omega⟩
      obtain ⟨h', g', O', e⟩ := O.insert (v := v) (Nat.le_refl T) (by omega) hc hm g
      exact Orphan.fills v M O' (by omega) (by omega) (.inr ⟨_, _, rfl⟩) g'
    · obtain ⟨h', g'⟩ := O.full (v := v) (Nat.le_refl T) (by omega) hc (by omega) g
      exact ⟨T, h', g'⟩

/-- The state in which thread 0 has failed. -/
theorem lim_orphan : ∃ (h : Heap Nat) (c1 : Pc Nat) (p d : Nat), Rd (two (.fail (.insert (2 ^ 40 + 24) (2 ^ 40 + 24)) .rounds) h c1) ∧ Rest c1 ∧
    Orphan (2 ^ 40 + 24) h 2 4 p d ∧ (h.node 4).ents.length = 12 := by
  obtain ⟨h, c, c1, T, p, a, n, m, d, R, hc, G, hT, Y, h64, ho, hl, hy⟩ := lim_last
  have nf : ∀ o e, c1 ≠ .fail o e := by rcases hc with rfl | ⟨_, _, rfl⟩ <;> simp
  have S : Still (.par c) c := ⟨.inl rfl⟩
  have hold : Index.holds c1 = [] := by rcases hc with rfl | ⟨_, _, rfl⟩ <;> rfl
  have C := R.hush S nf (y := 0) (by rcases hc with rfl | ⟨_, _, rfl⟩ <;> simp [Index.right])
    (by rcases hc with rfl | ⟨_, _, rfl⟩ <;> exact fun n => id)
  rw [hold] at C
  have K := C.ctx
  have G' : Good T (2 ^ 40) h c.l p a n m d := by rw [hl]; exact G
  obtain ⟨hq1, hq2⟩ := C.H.parent G'.all G'.pl G'.p0
  have y2 := Y 2 (.inl rfl)
  have y4 := Y 4 (.inr rfl)
  have L := lim_leaf
  have sy := K.sy
  have py := K.py
  have hty := K.ht
  have ay := K.ay
  rw [hl, hy] at hty
  rw [hy] at sy py ay
  refine ⟨(h.mod c.y Node.unlock).mod c.l Node.unlock, c1, p, d, R.to0 ?_, hc, ?_, ?_⟩
  · simp only [step]
    rw [if_pos (by simp only [maxRounds]; exact h64), ho]
  · rw [hl, hy]
    have hpl : p ≠ 2 := by intro e; rw [hl, e] at hq2; omega
    have hpy : p ≠ 4 := by intro e; rw [hl, e, hty] at hq2; omega
    constructor <;> try simp only [mod_node, mod_fresh, if_neg hpl, if_neg hpy, if_true, unlock_ht, unlock_parent, unlock_next, unlock_ents, unlock_locked,
      unlock_splitting, unlock_rootf, unlock_lo, (by decide : ¬ (2 : Nat) = 4), (by decide : ¬ (4 : Nat) = 2), if_false]
    · refine Way.congr (h := h) (by exact rfl) (fun q hq => ?_) ((Up.way C G'.hl hq1 (by omega) G'.up).mono (by omega : T ≤ 2 ^ 40 + 24))
      have e2 : q ≠ 2 := by intro e; rw [e, G.hl] at hq; omega
      have e4 : q ≠ 4 := by intro e; rw [e, hty, G.hl] at hq; omega
      simp only [mod_node, if_neg e2, if_neg e4]
    · rw [G.nk]; exact G.last
    · intro i hi
      rw [G.nk] at hi
      by_cases e : i + 1 < n
      · have := G.keys i e; omega
      · have : i = n - 1 := by omega
        rw [this]; exact G.big2
    · decide
    · decide
    · decide
    · exact G.hl
    · rw [hty]; exact G.hl
    · rw [y2.2.2]; exact L.1
    · rw [y4.2.2]; exact L.2.1
    · rw [y4.1]; exact L.2.2.1
    · rw [y4.2.1]; exact L.2.2.2.1
    · exact py
    · simp [sy]
    · exact ay.2
  · rw [hl, hy]
    simp only [mod_node, if_true, (by decide : ¬ (4 : Nat) = 2), if_false, unlock_ents]
    rw [y4.2.1]; exact L.2.2.2.2

end Verif.Index
