import Verif.Proof.WholeChain
set_option linter.unusedSimpArgs false
set_option linter.unusedVariables false
/-! One layer with its internodes: nobody is to the right of its key. -/
namespace Verif.Whole
open Verif.Internode (upd upd_same upd_ne)
open Verif.Index (Al Full holds PcOk ROk Calm Failed)
open Verif.Perm (size get)
variable {V : Type}

theorem upd_upd {α : Type} (f : Nat → α) (i : Nat) (a b : α) : upd (upd f i a) i b = upd f i b := by
  funext j; simp only [upd]; split <;> rfl

/-- What is known about where an insert stands. -/
def InsOk (c : Chain.St V) (ik : Nat) : IPc → Prop
  | .adv _ x => c.live x = true ∧ (c.leaf x).lo ≤ ik
  | .bound _ x z => c.live x = true ∧ (c.leaf x).lo ≤ ik ∧ c.live z = true
  | .lock x => c.live x = true ∧ (c.leaf x).lo ≤ ik
  | .check x => c.live x = true ∧ (c.leaf x).lo ≤ ik ∧ isLocked (c.hold x) = true
  | .own x => c.live x = true ∧ (c.leaf x).lo ≤ ik ∧ held (c.hold x) = true ∧ ((c.leaf x).nx ≠ 0 → ik < (c.leaf (c.leaf x).nx).lo)

/-- The leaf that an insert has locked. -/
def IPc.grip : IPc → Option Nat
  | .check x => some x
  | .own x => some x
  | _ => none

/-- A thread that is among the leaves, with its key. -/
def Side.inside (s : Side) (i : Nat) : Prop := ∃ o r n, s.ix.pc i = .sect o r n

/-- What is known about a layer. -/
structure LOk (main : Bool) (l : Lay V) : Prop where
  F : Full main l.s.ix
  C : Chain.Inv l.c
  key : ∀ i o, (l.s.ix.pc i).op = some o → o.key = (l.s.key i).ikey
  down : ∀ n, Al l.s.ix.heap n → (l.s.ix.heap.node n).ht = 0 →
    l.c.live (l.s.leaf n) = true ∧ (l.c.leaf (l.s.leaf n)).lo = (l.s.ix.heap.node n).lo ∧ l.s.num (l.s.leaf n) = n
  up : ∀ x, l.c.live x = true → Al l.s.ix.heap (l.s.num x) ∧ (l.s.ix.heap.node (l.s.num x)).ht = 0 ∧ l.s.leaf (l.s.num x) = x
  next : ∀ x, l.c.live x = true →
    (l.s.ix.heap.node (l.s.num x)).next = if (l.c.leaf x).nx = 0 then 0 else l.s.num (l.c.leaf x).nx
  busy : ∀ x, l.c.live x = true → (l.s.ix.heap.node (l.s.num x)).locked = true → leaving (l.c.hold x) = true
  ins : ∀ i o r n, l.s.ix.pc i = .sect o r n → InsOk l.c o.key (l.s.ins i)
  excl : ∀ i j x, l.s.inside i → l.s.inside j → (l.s.ins i).grip = some x → (l.s.ins j).grip = some x → i = j

theorem LOk.lo {main : Bool} {l : Lay V} (h : LOk main l) {x : Nat} (hx : l.c.live x = true) :
    (l.s.ix.heap.node (l.s.num x)).lo = (l.c.leaf x).lo := by
  obtain ⟨a, b, c⟩ := h.up x hx
  have := (h.down _ a b).2.1
  rw [c] at this; exact this.symm

theorem isLocked_held {h : Chain.HPc} (e : isLocked h = true) : held h = true := by
  cases h <;> first | rfl | cases e

/-- A leaf that an insert has locked is held. -/
theorem LOk.grip {main : Bool} {l : Lay V} (h : LOk main l) {i x : Nat} (hi : l.s.inside i) (hg : (l.s.ins i).grip = some x) :
    l.c.live x = true ∧ held (l.c.hold x) = true := by
  obtain ⟨o, r, n, hp⟩ := hi
  have := h.ins i o r n hp
  cases e : l.s.ins i with
  | check y => rw [e] at this hg; cases hg; exact ⟨this.1, isLocked_held this.2.2⟩
  | own y => rw [e] at this hg; cases hg; exact ⟨this.1, this.2.2.1⟩
  | _ => rw [e] at hg; cases hg

/-- A step in the leaves alone. -/
theorem LOk.chain {main : Bool} {l : Lay V} (h : LOk main l) {c' : Chain.St V} {x : Nat} (hC : Chain.Inv c') (T : Tame l.c c' x)
    (hb : l.c.live x = true → (l.s.ix.heap.node (l.s.num x)).locked = true → leaving (c'.hold x) = true)
    (hi : ∀ i, l.s.inside i → (l.s.ins i = .check x → isLocked (c'.hold x) = true) ∧ (l.s.ins i = .own x → held (c'.hold x) = true)) :
    LOk main ⟨c', l.s⟩ := by
  refine ⟨h.F, hC, h.key, ?_, ?_, ?_, ?_, ?_, h.excl⟩
  · intro n hn h0
    obtain ⟨a, b, d⟩ := h.down n hn h0
    exact ⟨by rw [T.live]; exact a, by show (c'.leaf (l.s.leaf n)).lo = _; rw [T.lo _ a]; exact b, d⟩
  · intro z hz
    rw [T.live] at hz
    exact h.up z hz
  · intro z hz
    rw [T.live] at hz
    show _ = if (c'.leaf z).nx = 0 then 0 else l.s.num (c'.leaf z).nx
    rw [T.nx _ hz]; exact h.next z hz
  · intro z hz hk
    rw [T.live] at hz
    by_cases e : z = x
    · subst e; exact hb hz hk
    · show leaving (c'.hold z) = true
      rw [T.hold z hz e]; exact h.busy z hz hk
  · intro i o r n hp
    have q := h.ins i o r n hp
    have hi := hi i ⟨o, r, n, hp⟩
    show InsOk c' o.key (l.s.ins i)
    cases e : l.s.ins i with
    | adv g z => rw [e] at q; exact ⟨by rw [T.live]; exact q.1, by rw [T.lo _ q.1]; exact q.2⟩
    | bound g z w => rw [e] at q; exact ⟨by rw [T.live]; exact q.1, by rw [T.lo _ q.1]; exact q.2.1, by rw [T.live]; exact q.2.2⟩
    | lock z => rw [e] at q; exact ⟨by rw [T.live]; exact q.1, by rw [T.lo _ q.1]; exact q.2⟩
    | check z =>
      rw [e] at q
      refine ⟨by rw [T.live]; exact q.1, by rw [T.lo _ q.1]; exact q.2.1, ?_⟩
      by_cases ez : z = x
      · subst ez; exact hi.1 e
      · rw [T.hold z q.1 ez]; exact q.2.2
    | own z =>
      rw [e] at q
      refine ⟨by rw [T.live]; exact q.1, by rw [T.lo _ q.1]; exact q.2.1, ?_, ?_⟩
      · by_cases ez : z = x
        · subst ez; exact hi.2 e
        · rw [T.hold z q.1 ez]; exact q.2.2.1
      · rw [T.nx _ q.1]
        intro h0
        rw [T.lo _ (h.C.link z q.1 h0).1]; exact q.2.2.2 h0

/-- A thread that holds nothing goes on elsewhere. -/
theorem LOk.goto {main : Bool} {l : Lay V} (h : LOk main l) {i : Nat} {p : Index.Pc Unit} (h1 : holds (l.s.ix.pc i) = []) (h2 : holds p = [])
    (h3 : PcOk main l.s.ix.heap p) (h4 : ROk l.s.ix.heap p) (h5 : ∀ o, p.op = some o → o.key = (l.s.key i).ikey)
    (h6 : ∀ o r n, p = .sect o r n → InsOk l.c o.key (l.s.ins i) ∧ (l.s.ins i).grip = none) : LOk main ⟨l.c, l.s.goto i p⟩ := by
  have P : ∀ j, (l.s.goto i p).ix.pc j = if j = i then p else l.s.ix.pc j := fun j => rfl
  refine ⟨h.F.jump h1 h2 h3 h4, h.C, ?_, h.down, h.up, h.next, h.busy, ?_, ?_⟩
  · intro j o hj
    have hj' : ((l.s.goto i p).ix.pc j).op = some o := hj
    rw [P] at hj'
    by_cases e : j = i
    · rw [if_pos e] at hj'; rw [e]; exact h5 o hj'
    · rw [if_neg e] at hj'; exact h.key j o hj'
  · intro j o r n hj
    have hj' : (l.s.goto i p).ix.pc j = .sect o r n := hj
    rw [P] at hj'
    by_cases e : j = i
    · rw [if_pos e] at hj'; rw [e]; exact (h6 o r n hj').1
    · rw [if_neg e] at hj'; exact h.ins j o r n hj'
  · have E : ∀ j x, (l.s.goto i p).inside j → (l.s.ins j).grip = some x → l.s.inside j := by
      rintro j x ⟨o, r, n, hj⟩ hg
      rw [P] at hj
      split at hj
      · rename_i e; subst e; rw [(h6 o r n hj).2] at hg; cases hg
      · exact ⟨o, r, n, hj⟩
    intro j k x hj hk gj gk
    exact h.excl j k x (E j x hj gj) (E k x hk gk) gj gk

/-- An insert goes on elsewhere among the leaves. -/
theorem LOk.move {main : Bool} {l : Lay V} (h : LOk main l) {i : Nat} {p : IPc} (h1 : ∀ o r n, l.s.ix.pc i = .sect o r n → InsOk l.c o.key p)
    (h2 : ∀ x, p.grip = some x → ∀ j, j ≠ i → l.s.inside j → (l.s.ins j).grip ≠ some x) : LOk main ⟨l.c, l.s.move i p⟩ := by
  have P : ∀ j, (l.s.move i p).ins j = if j = i then p else l.s.ins j := fun j => rfl
  refine ⟨h.F, h.C, h.key, h.down, h.up, h.next, h.busy, ?_, ?_⟩
  · intro j o r n hj
    show InsOk l.c o.key ((l.s.move i p).ins j)
    rw [P]
    split
    · rename_i e; subst e; exact h1 o r n hj
    · exact h.ins j o r n hj
  · intro j k x hj hk gj gk
    have gj : ((l.s.move i p).ins j).grip = some x := gj
    have gk : ((l.s.move i p).ins k).grip = some x := gk
    rw [P] at gj gk
    by_cases ej : j = i <;> by_cases ek : k = i
    · rw [ej, ek]
    · rw [if_pos ej] at gj; rw [if_neg ek] at gk; exact absurd gk (h2 x gj k ek hk)
    · rw [if_neg ej] at gj; rw [if_pos ek] at gk; exact absurd gj (h2 x gk j ej hj)
    · rw [if_neg ej] at gj; rw [if_neg ek] at gk; exact h.excl j k x hj hk gj gk

/-- A step in the internodes. -/
theorem LOk.walk {strict main : Bool} {l : Lay V} (h : LOk main l) {i : Nat} (hi : inIndex (l.s.ix.pc i) = true) (hc : Calm strict l.s.ix i)
    (hf : ¬ Failed (Index.act strict main l.s.ix (.run i)) i) :
    LOk main ⟨l.c, { l.s with ix := Index.act strict main l.s.ix (.run i) }⟩ := by
  obtain ⟨F', L, _⟩ := h.F.run i hc hf
  have S := Index.step_leaves (strict := strict) (h.F.I.ok i) hi
  have P : ∀ j, j ≠ i → (Index.act strict main l.s.ix (.run i)).pc j = l.s.ix.pc j := fun j hj => upd_ne _ _ _ hj
  have Pi : (Index.act strict main l.s.ix (.run i)).pc i = (Index.step strict main l.s.ix.heap (l.s.ix.pc i)).2 := upd_same _ _ _
  have ns : ∀ o r n, (Index.act strict main l.s.ix (.run i)).pc i ≠ .sect o r n := by
    intro o r n; rw [Pi]; exact Index.step_sect hi
  have nx : ∀ x, l.c.live x = true → Al l.s.ix.heap (l.s.num x) ∧
      ((Index.act strict main l.s.ix (.run i)).heap.node (l.s.num x)).ht = 0 ∧ Al (Index.act strict main l.s.ix (.run i)).heap (l.s.num x) := by
    intro x hx
    obtain ⟨a, b, c⟩ := h.up x hx
    exact ⟨a, by rw [L.ht _ a]; exact b, a.mono L.fresh⟩
  have ii : ∀ j, Side.inside { l.s with ix := Index.act strict main l.s.ix (.run i) } j → l.s.inside j := by
    rintro j ⟨o, r, n, hj⟩
    by_cases e : j = i
    · subst e; exact absurd hj (ns o r n)
    · exact ⟨o, r, n, by rw [← P j e]; exact hj⟩
  refine ⟨F', h.C, ?_, ?_, ?_, ?_, ?_, ?_, ?_⟩
  · intro j o hj
    have hj : ((Index.act strict main l.s.ix (.run i)).pc j).op = some o := hj
    by_cases e : j = i
    · subst e; rw [Pi, Index.step_op hi] at hj; exact h.key _ o hj
    · rw [P j e] at hj; exact h.key j o hj
  · intro n hn h0
    obtain ⟨a, b, c⟩ := S n hn h0
    have h0 : ((Index.act strict main l.s.ix (.run i)).heap.node n).ht = 0 := h0
    rw [L.ht n a] at h0
    obtain ⟨d1, d2, d3⟩ := h.down n a h0
    exact ⟨d1, by show _ = ((Index.act strict main l.s.ix (.run i)).heap.node n).lo; rw [L.lo n a]; exact d2, d3⟩
  · intro x hx
    exact ⟨(nx x hx).2.2, (nx x hx).2.1, (h.up x hx).2.2⟩
  · intro x hx
    obtain ⟨a, b, c⟩ := nx x hx
    have := (S _ c b).2.1
    exact this.trans (h.next x hx)
  · intro x hx hk
    obtain ⟨a, b, c⟩ := nx x hx
    exact h.busy x hx ((S _ c b).2.2 hk)
  · intro j o r n hj
    by_cases e : j = i
    · subst e; exact absurd hj (ns o r n)
    · exact h.ins j o r n (by rw [← P j e]; exact hj)
  · intro j k x hj hk gj gk
    exact h.excl j k x (ii j hj) (ii k hk) gj gk

/-- A call. -/
theorem LOk.call {strict main : Bool} {l : Lay V} (h : LOk main l) {i : Nat} (k : Key) (put : Bool)
    (hi : l.s.ix.pc i = .idle ∨ ∃ a b, l.s.ix.pc i = .done a b) :
    LOk main ⟨l.c, { l.s with key := upd l.s.key i k,
                              ix := Index.act strict main l.s.ix (.call i (if put then .insert k.ikey () else .get k.ikey)) }⟩ := by
  have F' := h.F.call (strict := strict) i (if put then .insert k.ikey () else .get k.ikey)
  have E : Index.act strict main l.s.ix (.call i (if put then .insert k.ikey () else .get k.ikey)) =
      ⟨l.s.ix.heap, upd l.s.ix.pc i (.climb (if put then .insert k.ikey () else .get k.ikey) l.s.ix.heap.root)⟩ := by
    rcases hi with g | ⟨a, b, g⟩ <;> simp only [Index.act, g]
  rw [E] at F' ⊢
  have ii : ∀ j o r n, upd l.s.ix.pc i (.climb (if put then .insert k.ikey () else .get k.ikey) l.s.ix.heap.root) j = .sect o r n →
      l.s.ix.pc j = .sect o r n := by
    intro j o r n hj
    by_cases e : j = i
    · subst e; rw [upd_same] at hj; cases hj
    · rw [upd_ne _ _ _ e] at hj; exact hj
  refine ⟨F', h.C, ?_, h.down, h.up, h.next, h.busy, fun j o r n hj => h.ins j o r n (ii j o r n hj), ?_⟩
  · intro j o hj
    show o.key = (upd l.s.key i k j).ikey
    have hj : (upd l.s.ix.pc i (.climb (if put then .insert k.ikey () else .get k.ikey) l.s.ix.heap.root) j).op = some o := hj
    by_cases e : j = i
    · subst e; rw [upd_same] at hj ⊢; cases hj; cases put <;> rfl
    · rw [upd_ne _ _ _ e] at hj ⊢; exact h.key j o hj
  · rintro j k' x ⟨o, r, n, hj⟩ ⟨o', r', n', hk⟩ gj gk
    exact h.excl j k' x ⟨o, r, n, ii j o r n hj⟩ ⟨o', r', n', ii k' o' r' n' hk⟩ gj gk

/-- The new leaf is linked. -/
theorem LOk.link {main : Bool} {l : Lay V} (h : LOk main l) (fixed : Bool) {i x y : Nat} {lv : NV.W} {o : Index.Op Unit} {r n : Nat}
    (hp : l.s.ix.pc i = .sect o r n) (ho : l.s.ins i = .own x) (hh : l.c.hold x = .publish lv y) :
    LOk main ⟨Chain.act fixed l.c (.hold x), link main l.s i x y (l.c.leaf y).lo⟩ := by
  obtain ⟨n1, n2, n3, n4, n5, n6, n7⟩ := h.C.new x y (by rw [hh]; rfl)
  have nset := h.C.set x lv y hh
  have q := h.ins i o r n hp
  rw [ho] at q
  obtain ⟨q1, q2, q3, q4⟩ := q
  have hyx : y ≠ x := by intro e; rw [e, n1] at n3; cases n3
  obtain ⟨u1, u2, u3⟩ := h.up x n1
  have ulo := h.lo n1
  have unx := h.next x n1
  have ul : (l.s.ix.heap.node (l.s.num x)).locked = false := by
    cases e : (l.s.ix.heap.node (l.s.num x)).locked with
    | false => rfl
    | true => have := h.busy x n1 e; rw [hh] at this; cases this
  have ok := h.F.I.ok i
  have R := h.F.R i
  rw [hp] at ok R
  have F1 : Full main ⟨l.s.ix.heap, upd l.s.ix.pc i (.sect o r (l.s.num x))⟩ :=
    h.F.jump (by rw [hp]; rfl) rfl ⟨ok.1, u1, u2, ok.2.2.2⟩ ⟨R.1, by rw [ulo]; exact q2⟩
  have F2 := F1.splitAt (i := i) (o := o) (r := r) (l := l.s.num x) (sep := (l.c.leaf y).lo) (upd_same _ _ _) ul (by rw [ulo]; exact n6)
    (by
      show (l.s.ix.heap.node (l.s.num x)).next ≠ 0 → _ < (l.s.ix.heap.node (l.s.ix.heap.node (l.s.num x)).next).lo
      intro h0
      by_cases g : (l.c.leaf x).nx = 0
      · rw [unx, if_pos g] at h0; exact absurd rfl h0
      · rw [unx, if_neg g, h.lo (h.C.link x n1 g).1]; exact n7 g)
    ⟨o, r, l.s.num x, l.s.ix.heap.fresh, (l.c.leaf y).lo, main && (l.s.ix.heap.node (l.s.num x)).rootf && l.s.ix.heap.root == l.s.num x,
      (l.s.ix.heap.node (l.s.num x)).rootf && (l.s.ix.heap.node (l.s.num x)).parent == 0 &&
        !(main && (l.s.ix.heap.node (l.s.num x)).rootf && l.s.ix.heap.root == l.s.num x), 0, 0⟩ rfl rfl rfl rfl rfl rfl rfl rfl
  have F2 : Full main ⟨splitAt l.s.ix.heap (l.s.num x) (l.c.leaf y).lo, upd (upd l.s.ix.pc i (.sect o r (l.s.num x))) i _⟩ := F2
  rw [upd_upd] at F2
  have E : Chain.act fixed l.c (.hold x) = { l.c with leaf := upd l.c.leaf x { l.c.leaf x with nx := y, mark := false }, hold := upd l.c.hold x (.unlock lv), live := upd l.c.live y true } := by
    show Chain.hstep l.c x = _
    unfold Chain.hstep; rw [hh]
  have E2 : Whole.link main l.s i x y (l.c.leaf y).lo = { l.s with
      ix := ⟨splitAt l.s.ix.heap (l.s.num x) (l.c.leaf y).lo, upd l.s.ix.pc i (.par ⟨o, r, l.s.num x, l.s.ix.heap.fresh, (l.c.leaf y).lo,
        main && (l.s.ix.heap.node (l.s.num x)).rootf && l.s.ix.heap.root == l.s.num x,
        (l.s.ix.heap.node (l.s.num x)).rootf && (l.s.ix.heap.node (l.s.num x)).parent == 0 &&
        !(main && (l.s.ix.heap.node (l.s.num x)).rootf && l.s.ix.heap.root == l.s.num x), 0, 0⟩)⟩, num := upd l.s.num y l.s.ix.heap.fresh, leaf := upd l.s.leaf l.s.ix.heap.fresh y } := by
    unfold Whole.link; rw [hp]
  have HC := h.C.act fixed (.hold x)
  rw [E] at HC ⊢
  rw [E2]
  generalize hpp : (Index.Pc.par ⟨o, r, l.s.num x, l.s.ix.heap.fresh, (l.c.leaf y).lo,
        main && (l.s.ix.heap.node (l.s.num x)).rootf && l.s.ix.heap.root == l.s.num x,
        (l.s.ix.heap.node (l.s.num x)).rootf && (l.s.ix.heap.node (l.s.num x)).parent == 0 &&
        !(main && (l.s.ix.heap.node (l.s.num x)).rootf && l.s.ix.heap.root == l.s.num x), 0, 0⟩ : Index.Pc Unit) = pp at F2 ⊢
  have ppo : pp.op = some o := by rw [← hpp]; rfl
  have pps : ∀ o r n, pp ≠ .sect o r n := by rw [← hpp]; nofun
  have nf : l.s.num x ≠ l.s.ix.heap.fresh := by have := u1.2; omega
  -- the nodes
  let H' := splitAt l.s.ix.heap (l.s.num x) (l.c.leaf y).lo
  have hf : H'.fresh = l.s.ix.heap.fresh + 1 := rfl
  have hN : ∀ m, H'.node m = upd (upd l.s.ix.heap.node (l.s.num x) _) l.s.ix.heap.fresh _ m := fun m => rfl
  have fr : (H'.node l.s.ix.heap.fresh).ht = 0 ∧ (H'.node l.s.ix.heap.fresh).lo = (l.c.leaf y).lo ∧
      (H'.node l.s.ix.heap.fresh).next = (l.s.ix.heap.node (l.s.num x)).next := by
    rw [hN, upd_same]; exact ⟨rfl, rfl, rfl⟩
  have old : ∀ m, m ≠ l.s.ix.heap.fresh → (H'.node m).ht = (l.s.ix.heap.node m).ht ∧ (H'.node m).lo = (l.s.ix.heap.node m).lo ∧
      (m ≠ l.s.num x → H'.node m = l.s.ix.heap.node m) := by
    intro m hm
    rw [hN, upd_ne _ _ _ hm]
    by_cases e : m = l.s.num x
    · subst e; rw [upd_same]; exact ⟨rfl, rfl, fun g => absurd rfl g⟩
    · rw [upd_ne _ _ _ e]; exact ⟨rfl, rfl, fun _ => rfl⟩
  have xnx : (H'.node (l.s.num x)).next = l.s.ix.heap.fresh := by rw [hN, upd_ne _ _ _ nf, upd_same]
  have AL : ∀ m, Al l.s.ix.heap m → Al H' m ∧ m ≠ l.s.ix.heap.fresh := fun m hm => ⟨hm.mono (by rw [hf]; omega), by have := hm.2; omega⟩
  have fpos : 0 < l.s.ix.heap.fresh := by have := u1.2; omega
  -- the leaves
  have cl : ∀ z, z ≠ x → upd l.c.leaf x { l.c.leaf x with nx := y, mark := false } z = l.c.leaf z := fun z hz => upd_ne _ _ _ hz
  have clo : ∀ z, (upd l.c.leaf x { l.c.leaf x with nx := y, mark := false } z).lo = (l.c.leaf z).lo := by
    intro z
    by_cases e : z = x
    · subst e; rw [upd_same]
    · rw [cl z e]
  have lv' : ∀ z, upd l.c.live y true z = true → z = y ∨ (l.c.live z = true ∧ z ≠ y) := by
    intro z hz
    by_cases e : z = y
    · exact .inl e
    · rw [upd_ne _ _ _ e] at hz; exact .inr ⟨hz, e⟩
  have lvy : ∀ z, l.c.live z = true → z ≠ y ∧ upd l.c.live y true z = true := by
    intro z hz
    have e : z ≠ y := by intro e; subst e; rw [n3] at hz; cases hz
    exact ⟨e, by rw [upd_ne _ _ _ e]; exact hz⟩
  have ii : ∀ j, j ≠ i → ∀ o r n, upd l.s.ix.pc i pp j = .sect o r n → l.s.ix.pc j = .sect o r n := by
    intro j hj o r n e; rw [upd_ne _ _ _ hj] at e; exact e
  refine ⟨F2, HC, ?_, ?_, ?_, ?_, ?_, ?_, ?_⟩
  · intro j o' hj
    have hj : (upd l.s.ix.pc i pp j).op = some o' := hj
    by_cases e : j = i
    · subst e
      rw [upd_same, ppo] at hj
      cases hj
      exact h.key j o (by rw [hp]; rfl)
    · rw [upd_ne _ _ _ e] at hj; exact h.key j o' hj
  · intro m hm h0
    show upd l.c.live y true (upd l.s.leaf l.s.ix.heap.fresh y m) = true ∧
      (upd l.c.leaf x { l.c.leaf x with nx := y, mark := false } (upd l.s.leaf l.s.ix.heap.fresh y m)).lo = (H'.node m).lo ∧
      upd l.s.num y l.s.ix.heap.fresh (upd l.s.leaf l.s.ix.heap.fresh y m) = m
    by_cases e : m = l.s.ix.heap.fresh
    · subst e
      rw [upd_same, upd_same, upd_same, clo, fr.2.1]
      exact ⟨rfl, rfl, rfl⟩
    · have ha : Al l.s.ix.heap m := ⟨hm.1, by have := hm.2; have : m < l.s.ix.heap.fresh + 1 := this; omega⟩
      have h0 : (H'.node m).ht = 0 := h0
      rw [(old m e).1] at h0
      obtain ⟨d1, d2, d3⟩ := h.down m ha h0
      rw [upd_ne _ _ _ e, clo, (old m e).2.1, upd_ne l.s.num _ _ (lvy _ d1).1]
      exact ⟨(lvy _ d1).2, d2, d3⟩
  · intro z hz
    show Al H' (upd l.s.num y l.s.ix.heap.fresh z) ∧ (H'.node (upd l.s.num y l.s.ix.heap.fresh z)).ht = 0 ∧
      upd l.s.leaf l.s.ix.heap.fresh y (upd l.s.num y l.s.ix.heap.fresh z) = z
    rcases lv' z hz with e | ⟨hz, e⟩
    · subst e; rw [upd_same, upd_same]; exact ⟨⟨fpos, by rw [hf]; omega⟩, fr.1, rfl⟩
    · obtain ⟨v1, v2, v3⟩ := h.up z hz
      rw [upd_ne _ _ _ e, upd_ne _ _ _ (AL _ v1).2, (old _ (AL _ v1).2).1]
      exact ⟨(AL _ v1).1, v2, v3⟩
  · intro z hz
    show (H'.node (upd l.s.num y l.s.ix.heap.fresh z)).next =
      if (upd l.c.leaf x { l.c.leaf x with nx := y, mark := false } z).nx = 0 then 0
      else upd l.s.num y l.s.ix.heap.fresh (upd l.c.leaf x { l.c.leaf x with nx := y, mark := false } z).nx
    have keep : ∀ z, l.c.live z = true → (if (l.c.leaf z).nx = 0 then 0 else upd l.s.num y l.s.ix.heap.fresh (l.c.leaf z).nx) =
        if (l.c.leaf z).nx = 0 then 0 else l.s.num (l.c.leaf z).nx := by
      intro z hz
      by_cases g : (l.c.leaf z).nx = 0
      · rw [if_pos g, if_pos g]
      · rw [if_neg g, if_neg g, upd_ne _ _ _ (lvy _ (h.C.link z hz g).1).1]
    rcases lv' z hz with e | ⟨hz, e⟩
    · subst e
      rw [upd_same, fr.2.2, cl z hyx, nset, keep x n1]
      exact unx
    · rw [upd_ne _ _ _ e]
      by_cases ex : z = x
      · subst ex
        rw [xnx, upd_same]
        show _ = if y = 0 then 0 else upd l.s.num y l.s.ix.heap.fresh y
        rw [if_neg n2, upd_same]
      · obtain ⟨v1, v2, v3⟩ := h.up z hz
        have : l.s.num z ≠ l.s.num x := by intro g; rw [g, u3] at v3; exact ex v3.symm
        rw [(old _ (AL _ v1).2).2.2 this, cl z ex, keep z hz]
        exact h.next z hz
  · intro z hz hk
    have hk : (H'.node (upd l.s.num y l.s.ix.heap.fresh z)).locked = true := hk
    show leaving (upd l.c.hold x (.unlock lv) z) = true
    rcases lv' z hz with e | ⟨hz, e⟩
    · subst e; rw [upd_ne _ _ _ hyx, n5]; rfl
    · by_cases ex : z = x
      · subst ex; rw [upd_same]; rfl
      · obtain ⟨v1, v2, v3⟩ := h.up z hz
        have : l.s.num z ≠ l.s.num x := by intro g; rw [g, u3] at v3; exact ex v3.symm
        rw [upd_ne _ _ _ e, (old _ (AL _ v1).2).2.2 this] at hk
        rw [upd_ne _ _ _ ex]
        exact h.busy z hz hk
  · intro j o' r' n' hj
    by_cases e : j = i
    · subst e
      have hj : upd l.s.ix.pc j pp j = .sect o' r' n' := hj
      rw [upd_same] at hj; exact absurd hj (pps o' r' n')
    · have hj' : l.s.ix.pc j = .sect o' r' n' := ii j e o' r' n' hj
      have g := h.ins j o' r' n' hj'
      have nx' : ∀ z, (l.s.ins j).grip = some z → z ≠ x := by
        intro z hz ez
        subst ez
        exact e (h.excl j i z ⟨_, _, _, hj'⟩ ⟨_, _, _, hp⟩ hz (by rw [ho]; rfl))
      show InsOk { l.c with leaf := upd l.c.leaf x { l.c.leaf x with nx := y, mark := false }, hold := upd l.c.hold x (.unlock lv), live := upd l.c.live y true } o'.key (l.s.ins j)
      cases ej : l.s.ins j with
      | adv g' z => rw [ej] at g; exact ⟨(lvy _ g.1).2, by rw [clo]; exact g.2⟩
      | bound g' z w => rw [ej] at g; exact ⟨(lvy _ g.1).2, by rw [clo]; exact g.2.1, (lvy _ g.2.2).2⟩
      | lock z => rw [ej] at g; exact ⟨(lvy _ g.1).2, by rw [clo]; exact g.2⟩
      | check z =>
        have ez := nx' z (by rw [ej]; rfl)
        rw [ej] at g
        refine ⟨(lvy _ g.1).2, by rw [clo]; exact g.2.1, ?_⟩
        show isLocked (upd l.c.hold x (.unlock lv) z) = true
        rw [upd_ne _ _ _ ez]; exact g.2.2
      | own z =>
        have ez := nx' z (by rw [ej]; rfl)
        rw [ej] at g
        refine ⟨(lvy _ g.1).2, by rw [clo]; exact g.2.1, ?_, ?_⟩
        · show held (upd l.c.hold x (.unlock lv) z) = true
          rw [upd_ne _ _ _ ez]; exact g.2.2.1
        · show (upd l.c.leaf x { l.c.leaf x with nx := y, mark := false } z).nx ≠ 0 → _ < (upd l.c.leaf x { l.c.leaf x with nx := y, mark := false }
            (upd l.c.leaf x { l.c.leaf x with nx := y, mark := false } z).nx).lo
          rw [cl z ez, clo]; exact g.2.2.2
  · have I : ∀ j, Side.inside { l.s with ix := ⟨splitAt l.s.ix.heap (l.s.num x) (l.c.leaf y).lo, upd l.s.ix.pc i pp⟩, num := upd l.s.num y l.s.ix.heap.fresh, leaf := upd l.s.leaf l.s.ix.heap.fresh y } j → l.s.inside j := by
      rintro j ⟨o', r', n', hj⟩
      by_cases e : j = i
      · subst e
        have hj : upd l.s.ix.pc j pp j = .sect o' r' n' := hj
        rw [upd_same] at hj; exact absurd hj (pps o' r' n')
      · exact ⟨o', r', n', ii j e o' r' n' hj⟩
    intro j k z hj hk gj gk
    exact h.excl j k z (I j hj) (I k hk) gj gk

end Verif.Whole
