import Verif.Proof.TreeBody
import Verif.Prop.KSearch
import Verif.Proof.Internode
set_option linter.unusedSimpArgs false
set_option linter.unusedVariables false
/-!
# The tree invariant and what it gives to readers

`G` is ghost state: for every node ever allocated, the key prefix its layer stands for and the range of chunks it is
responsible for.  `E` is how parents see the nodes; it differs from `G` only while a split is being propagated.
-/
namespace Verif.Tree
open Verif.Spec (Bytes chunk lenClass)
open Verif.Internode (Arr upd)
open Verif.Perm (size get back backAtOffset insertFromBack swapFreeSlots setSize makeSorted24 params24)
variable {V : Type}

/-- A layer: the key prefix it stands for, and an identity (the layer's first leaf). -/
structure Layer where
  bytes : Bytes
  id : Nat

/-- Ghost description of a node: its layer and the range of chunks it is responsible for. -/
structure Info where
  pfx : Layer
  lo : Nat
  hi : Option Nat

abbrev Ghost := Nat → Option Info

/-- Distance to the leaf level. -/
def hgt (t : Tree V) (p : Nat) : Nat :=
  match t.kind p with
  | some .inode => t.height p + 1
  | _ => 0

theorem hgt_leaf {t : Tree V} {p : Nat} (h : t.kind p = some .leaf) : hgt t p = 0 := by simp [hgt, h]
theorem hgt_inode {t : Tree V} {p : Nat} (h : t.kind p = some .inode) : hgt t p = t.height p + 1 := by simp [hgt, h]

/-- Lower bound of child `j`. -/
def clo (a : Arr (Option Nat)) (lo j : Nat) : Nat := if j = 0 then lo else a.ikey (j - 1)
/-- Upper bound of child `j`. -/
def chi (a : Arr (Option Nat)) (hi : Option Nat) (j : Nat) : Option Nat := if j = a.nkeys then hi else some (a.ikey j)

/-- Child `j` of the internode `x` is as expected. -/
structure ChildOK (t : Tree V) (E : Ghost) (x : Nat) (a : Arr (Option Nat)) (i : Info) (j c : Nat) (ic : Info) : Prop where
  eq : a.child j = some c
  dom : E c = some ic
  par : t.parent c = some x
  pfx : ic.pfx = i.pfx
  hgt : hgt t c + 1 = hgt t x
  lo : ic.lo = clo a i.lo j
  hi : ic.hi = chi a i.hi j

structure InodeOK (t : Tree V) (E : Ghost) (x : Nat) (a : Arr (Option Nat)) (i : Info) : Prop where
  n1 : 1 ≤ a.nkeys
  n15 : a.nkeys ≤ 15
  fill : 7 ≤ a.nkeys ∨ t.parent x = none
  klo : ∀ j, j < a.nkeys → i.lo ≤ a.ikey j
  khi : ∀ j, j < a.nkeys → leHi (a.ikey j) i.hi
  sorted : ∀ j j', j < j' → j' < a.nkeys → a.ikey j ≤ a.ikey j'
  child : ∀ j, j ≤ a.nkeys → ∃ c ic, ChildOK t E x a i j c ic
  inj : ∀ j j', j ≤ a.nkeys → j' ≤ a.nkeys → a.child j = a.child j' → j = j'

/-- The leaf has an entry equal to its upper bound, or an empty range. -/
def Tight (b : Leaf V) (i : Info) : Prop := i.hi = some i.lo ∨ ∃ j, j < b.n ∧ i.hi = some (b.ent j).ikey

/-- The leaf `y` is the right neighbour of `x`. -/
structure NextOK (t : Tree V) (G : Ghost) (x : Nat) (i : Info) (y : Nat) (iy : Info) : Prop where
  dom : G y = some iy
  kind : t.kind y = some .leaf
  pfx : iy.pfx = i.pfx
  lo : i.hi = some iy.lo
  prev : t.prev y = some x
  tight : Tight (t.body x) i → ltHi iy.lo iy.hi

structure LinkOK (t : Tree V) (G : Ghost) (x : Nat) (i : Info) : Prop where
  next : ∀ y, t.next x = some y → ∃ iy, NextOK t G x i y iy
  nonext : t.next x = none → i.hi = none
  prev : ∀ w, t.prev x = some w → t.next w = some x ∧ t.kind w = some .leaf ∧ ∃ iw, G w = some iw
  slot0 : t.prev x ≠ none → get 5 (t.body x).perm 0 = 0 ∧ 0 < (t.body x).n ∧ (t.body x).ikey 0 = i.lo
  noprev : t.prev x = none → i.lo = 0

/-- Sublayer pointers lead to nodes of the layer whose prefix is longer by the eight bytes of the chunk. -/
def LayerOK (G : Ghost) (pfx : Bytes) (b : Leaf V) : Prop :=
  ∀ j, j < b.n → ∀ q, (b.ent j).cell = .layer q →
    ∃ iq c, G q = some iq ∧ iq.pfx.bytes = pfx ++ c ∧ c.length = 8 ∧ chunk c = (b.ent j).ikey

/-- A node and its parent. -/
structure UpOK (t : Tree V) (G : Ghost) (x : Nat) (i : Info) : Prop where
  child : ∀ p, t.parent x = some p → ∃ ip, G p = some ip ∧ t.kind p = some .inode ∧
    ∃ j, j ≤ (t.arr p).nkeys ∧ (t.arr p).child j = some x
  top : t.parent x = none → t.rootf x = true ∧ i.lo = 0 ∧ i.hi = none

structure Inv (t : Tree V) (G E : Ghost) (lk : Nat → Prop) : Prop where
  dom : ∀ x, (∃ i, G x = some i) ↔ x < t.fresh
  sub : ∀ x i, E x = some i → x < t.fresh
  kind : ∀ x, x < t.fresh → t.kind x ≠ none
  hgt : ∀ x, x < t.fresh → hgt t x < t.fresh
  pfx8 : ∀ x i, G x = some i → i.pfx.bytes.length % 8 = 0
  lohi : ∀ x i, G x = some i → leHi i.lo i.hi
  body : ∀ x i, t.kind x = some .leaf → G x = some i → BodyOK (t.body x) i.lo i.hi
  layer : ∀ x i, t.kind x = some .leaf → G x = some i → LayerOK G i.pfx.bytes (t.body x)
  link : ∀ x i, t.kind x = some .leaf → G x = some i → LinkOK t G x i
  inode : ∀ x i, t.kind x = some .inode → G x = some i → InodeOK t E x (t.arr x) i
  up : ∀ x i, E x = some i → UpOK t G x i
  root : ∃ i, E t.root = some i ∧ i.pfx.bytes = [] ∧ t.parent t.root = none
  locks : ∀ x, x < t.fresh → (t.locked x = true ↔ lk x)

/-- The invariant between operations. -/
abbrev Inv0 (t : Tree V) (G : Ghost) : Prop := Inv t G G (fun _ => False)

theorem Inv.kind_cases {t : Tree V} {G E : Ghost} {lk} (h : Inv t G E lk) {x : Nat} {i : Info} (hx : G x = some i) :
    t.kind x = some .leaf ∨ t.kind x = some .inode := by
  have := h.kind x ((h.dom x).1 ⟨i, hx⟩)
  cases hk : t.kind x with
  | none => exact absurd hk this
  | some k => cases k <;> simp

theorem Inv.lt {t : Tree V} {G E : Ghost} {lk} (h : Inv t G E lk) {x : Nat} {i : Info} (hx : G x = some i) :
    x < t.fresh := (h.dom x).1 ⟨i, hx⟩

/-- `t` lies in the range, or the range is empty and `t` is its only bound. -/
structure InR (t : Nat) (i : Info) : Prop where
  lo : i.lo ≤ t
  hi : leHi t i.hi
  eq : i.hi = some t → i.lo = t

theorem hgt_le_levels (t : Tree V) {x : Nat} (hx : x < t.fresh) : hgt t x ≤ levels t := by
  have e : levels t = (List.range t.fresh).foldl (fun m x => max m (hgt t x)) 0 := by
    unfold levels hgt; rfl
  rw [e]
  have key : ∀ (l : List Nat) (m : Nat), m ≤ l.foldl (fun m x => max m (hgt t x)) m ∧
      ∀ x ∈ l, hgt t x ≤ l.foldl (fun m x => max m (hgt t x)) m := by
    intro l
    induction l with
    | nil => intro m; simp
    | cons a l ih =>
      intro m
      obtain ⟨h1, h2⟩ := ih (max m (hgt t a))
      refine ⟨by simp only [List.foldl_cons]; omega, ?_⟩
      intro x hx
      simp only [List.foldl_cons]
      rcases List.mem_cons.1 hx with rfl | hx
      · omega
      · exact h2 x hx
  exact (key _ 0).2 x (List.mem_range.2 hx)

theorem Inv.walk {t : Tree V} {G E : Ghost} {lk} (h : Inv t G E lk) {x : Nat} {i : Info} (hx : G x = some i) :
    Verif.Tree.hgt t x < walkFuel t := by
  have := hgt_le_levels t (h.lt hx); unfold walkFuel; omega

theorem climb {t : Tree V} {G : Ghost} (h : Inv0 t G) : ∀ f x i, G x = some i → walkFuel t - hgt t x ≤ f →
    ∃ r ir, maybeParent t f x = .ok r ∧ G r = some ir ∧ ir.pfx = i.pfx ∧ t.parent r = none := by
  intro f
  induction f with
  | zero => intro x i hx hf; have := h.walk hx; omega
  | succ f ih =>
    intro x i hx hf
    have hlt := h.walk hx
    cases hp : t.parent x with
    | none =>
      refine ⟨x, i, ?_, hx, rfl, hp⟩
      rcases h.kind_cases hx with hk | hk <;> simp [maybeParent, hk, hp]
    | some p =>
      obtain ⟨ip, hip, hkp, j, hj, hc⟩ := (h.up x i hx).child p hp
      obtain ⟨c, ic, hch⟩ := (h.inode p ip hkp hip).child j hj
      have : c = x := by have := hch.eq; rw [hc] at this; cases this; rfl
      subst this
      have hpf : i.pfx = ip.pfx := by have := hch.dom; rw [hx] at this; cases this; exact hch.pfx
      have hh := hch.hgt
      obtain ⟨r, ir, h1, h2, h3, h4⟩ := ih p ip hip (by omega)
      refine ⟨r, ir, ?_, h2, by rw [h3, hpf], h4⟩
      rcases h.kind_cases hx with hk | hk <;> simp [maybeParent, hk, hp, h1]

/-- Where the descent goes at an internode. -/
theorem pick_child {t : Tree V} {E : Ghost} {x : Nat} {a : Arr (Option Nat)} {i : Info} (h : InodeOK t E x a i) {ik : Nat}
    (hr : InR ik i) : ∃ j, KSearch.upperBoundDirect ik a.nkeys a.ikey = j ∧ j ≤ a.nkeys ∧ clo a i.lo j ≤ ik ∧
      leHi ik (chi a i.hi j) ∧ (chi a i.hi j = some ik → clo a i.lo j = ik) := by
  have H := KSearch.upperLoop_spec (key := a.ikey) (t := ik) (pg := id) (n := a.nkeys)
    (by
      intro i j hij hj
      rcases Nat.lt_or_eq_of_le hij with h' | h'
      · exact h.sorted i j h' hj
      · subst h'; exact Nat.le_refl _) 0 a.nkeys (by omega) (by omega)
    (fun i h => by omega) (fun i h1 h2 => by omega)
  refine ⟨_, rfl, ?_⟩
  unfold KSearch.upperBoundDirect
  generalize KSearch.upperLoop id (fun s => compare ik (a.ikey s)) 0 a.nkeys = j at *
  simp only [id] at H
  unfold clo chi
  rcases H with ⟨h1, h2, h3⟩ | ⟨h1, h2, h3⟩
  · refine ⟨h1, ?_, ?_, ?_⟩
    · split
      · exact hr.lo
      · exact Nat.le_of_lt (h2 _ (by omega))
    · split
      · exact hr.hi
      · simp only [leHi_some]; exact Nat.le_of_lt (h3 _ (by omega) (by omega))
    · split
      · intro e
        have := hr.eq e
        have h5 := h2 (j - 1) (by have := h.n1; omega)
        have h6 := h.klo (j - 1) (by have := h.n1; omega)
        omega
      · intro e
        have := h3 j (by omega) (by omega)
        cases e; omega
  · refine ⟨h2, ?_, ?_, ?_⟩
    · rw [if_neg (by omega), h3]
    · split
      · exact hr.hi
      · simp only [leHi_some]
        have := h.sorted (j - 1) j (by omega) (by omega)
        omega
    · intro _; rw [if_neg (by omega), h3]

theorem reach {t : Tree V} {G : Ghost} (h : Inv0 t G) (start ik : Nat) : ∀ f x i, G x = some i → hgt t x < f → InR ik i →
    ∃ y iy, reachLeaf t start ik f x = .ok y ∧ G y = some iy ∧ t.kind y = some .leaf ∧ iy.pfx = i.pfx ∧ InR ik iy := by
  intro f
  induction f with
  | zero => intro x i _ hf; omega
  | succ f ih =>
    intro x i hx hf hr
    have hl : t.locked x = false := by
      have := h.locks x (h.lt hx)
      cases hq : t.locked x with
      | false => rfl
      | true => exact absurd (this.1 hq) id
    rcases h.kind_cases hx with hk | hk
    · refine ⟨x, i, ?_, hx, hk, rfl, hr⟩
      simp [reachLeaf, hk, stable, hl, bind, Except.bind]
    · have hin := h.inode x i hk hx
      obtain ⟨j, hj1, hj2, hj3, hj4, hj5⟩ := pick_child hin hr
      obtain ⟨c, ic, hc⟩ := hin.child j hj2
      have hic : InR ik ic := by
        constructor
        · rw [hc.lo]; exact hj3
        · rw [hc.hi]; exact hj4
        · rw [hc.hi, hc.lo]; exact hj5
      obtain ⟨y, iy, h1, h2, h3, h4, h5⟩ := ih c ic hc.dom (by have := hc.hgt; omega) hic
      refine ⟨y, iy, ?_, h2, h3, by rw [h4, hc.pfx], h5⟩
      simp [reachLeaf, hk, stable, hl, bind, Except.bind, hj1, hc.eq, h1]

/-- Entering a layer: from any node of the layer to the leaf responsible for a chunk. -/
theorem enter {t : Tree V} {G : Ghost} (h : Inv0 t G) (ik : Nat) {x : Nat} {i : Info} (hx : G x = some i) :
    ∃ r ir y iy, maybeParent t (walkFuel t) x = .ok r ∧ G r = some ir ∧ ir.pfx = i.pfx ∧ t.parent r = none ∧
      reachLeaf t r ik (walkFuel t) r = .ok y ∧ G y = some iy ∧ t.kind y = some .leaf ∧ iy.pfx = i.pfx ∧ InR ik iy := by
  obtain ⟨r, ir, h1, h2, h3, h4⟩ := climb h (walkFuel t) x i hx (by omega)
  obtain ⟨_, h5, h6⟩ := (h.up r ir h2).top h4
  have hr : InR ik ir := ⟨by omega, by rw [h6]; simp, by rw [h6]; intro e; cases e⟩
  obtain ⟨y, iy, a1, a2, a3, a4, a5⟩ := reach h r ik (walkFuel t) r ir h2 (h.walk h2) hr
  exact ⟨r, ir, y, iy, h1, h2, h3, h4, a1, a2, a3, by rw [a4, h3], a5⟩

/-- The bound read from the right neighbour is the upper end of this leaf. -/
theorem next_bound {t : Tree V} {G : Ghost} {E : Ghost} {lk} (h : Inv t G E lk) {x : Nat} {i : Info} (hk : t.kind x = some .leaf)
    (hx : G x = some i) {y : Nat} (hn : t.next x = some y) :
    ∃ iy, NextOK t G x i y iy ∧ ikeyBound t y = .ok iy.lo := by
  obtain ⟨iy, hy⟩ := (h.link x i hk hx).next y hn
  refine ⟨iy, hy, ?_⟩
  have := ((h.link y iy hy.kind hy.dom).slot0 (by rw [hy.prev]; simp)).2.2
  simp [ikeyBound, leafAt, hy.kind, bind, Except.bind, this]

/-- Outcome of the search in one leaf of the layer `pfx`. -/
inductive LRes (t : Tree V) (G : Ghost) (pfx : Bytes) (k : Key) : GetRes V → Prop
  | value (y : Nat) (iy : Info) (hy : G y = some iy) (hk : t.kind y = some .leaf) (hp : iy.pfx.bytes = pfx) (j : Nat)
      (hj : j < (t.body y).n) (hm : Matches ((t.body y).ent j) k) (hl : ((t.body y).ent j).klx ≠ 128) (v : V)
      (hc : ((t.body y).ent j).cell = .val v) : LRes t G pfx k (.value v)
  | descend (y : Nat) (iy : Info) (hy : G y = some iy) (hk : t.kind y = some .leaf) (hp : iy.pfx.bytes = pfx) (j : Nat)
      (hj : j < (t.body y).n) (hm : Matches ((t.body y).ent j) k) (hl : ((t.body y).ent j).klx = 128) (q : Nat)
      (hc : ((t.body y).ent j).cell = .layer q) : LRes t G pfx k (.descend q)
  | absent : LRes t G pfx k .absent

/-- If the search of the leaf `x` succeeds, the leaf loop ends there. -/
theorem leafLoop_hit {t : Tree V} {G : Ghost} (h : Inv0 t G) (k : Key) {x : Nat} {i : Info} (hx : G x = some i)
    (hk : t.kind x = some .leaf) (f : Nat) {j : Nat} (hj : j < (t.body x).n) (hm : Matches ((t.body x).ent j) k) :
    (∃ v, ((t.body x).ent j).klx ≠ 128 ∧ ((t.body x).ent j).cell = .val v ∧ leafLoop t k (f + 1) x = .ok (.value v)) ∨
    (∃ q, ((t.body x).ent j).klx = 128 ∧ ((t.body x).ent j).cell = .layer q ∧ leafLoop t k (f + 1) x = .ok (.descend q)) := by
  have hl : t.locked x = false := by
    have := h.locks x (h.lt hx)
    cases hq : t.locked x with
    | false => rfl
    | true => exact absurd (this.1 hq) id
  have hb := h.body x i hk hx
  rcases search_get_spec hb k with ⟨j', h1, h2, h3⟩ | ⟨h1, h2⟩
  · have := matches_unique hb hj h1 hm h3
    subst this
    have hc0 : ((t.body x).ent j).cell = (t.body x).cell (get 5 (t.body x).perm j) := rfl
    have hk0 : ((t.body x).ent j).klx = (t.body x).klx (get 5 (t.body x).perm j) := rfl
    cases hb.ok j hj with
    | inline h4 v h5 =>
      refine Or.inl ⟨v, by omega, h5, ?_⟩
      rw [hk0] at h4; rw [hc0] at h5
      have : ¬ layerKeylenx ≤ (t.body x).klx (get 5 (t.body x).perm j) := by simp only [layerKeylenx]; omega
      simp [leafLoop, leafAt, hk, stable, hl, bind, Except.bind, h2, this, h5]
    | suffix h4 v h5 s hs _ _ =>
      refine Or.inl ⟨v, by omega, h5, ?_⟩
      rw [hk0] at h4; rw [hc0] at h5
      have : ¬ layerKeylenx ≤ (t.body x).klx (get 5 (t.body x).perm j) := by simp only [layerKeylenx]; omega
      simp [leafLoop, leafAt, hk, stable, hl, bind, Except.bind, h2, this, h5]
    | layer h4 q h5 =>
      refine Or.inr ⟨q, h4, h5, ?_⟩
      rw [hk0] at h4; rw [hc0] at h5
      have : layerKeylenx ≤ (t.body x).klx (get 5 (t.body x).perm j) := by simp only [layerKeylenx]; omega
      simp [leafLoop, leafAt, hk, stable, hl, bind, Except.bind, h2, this, h5]
  · exact absurd hm (h2 j hj)

/-- If the search of `x` fails and the chunk is below the upper end, the answer is "absent". -/
theorem leafLoop_miss {t : Tree V} {G : Ghost} (h : Inv0 t G) (k : Key) {x : Nat} {i : Info} (hx : G x = some i)
    (hk : t.kind x = some .leaf) (f : Nat) (hm : ∀ j, j < (t.body x).n → ¬ Matches ((t.body x).ent j) k)
    (hi : ltHi k.ikey i.hi) : leafLoop t k (f + 1) x = .ok .absent := by
  have hl : t.locked x = false := by
    have := h.locks x (h.lt hx)
    cases hq : t.locked x with
    | false => rfl
    | true => exact absurd (this.1 hq) id
  have hb := h.body x i hk hx
  rcases search_get_spec hb k with ⟨j', h1, h2, h3⟩ | ⟨h1, h2⟩
  · exact absurd h3 (hm j' h1)
  · cases hn : t.next x with
    | none => simp [leafLoop, leafAt, hk, stable, hl, bind, Except.bind, h1, hn]
    | some y =>
      obtain ⟨iy, hy, hbd⟩ := next_bound h hk hx hn
      have : ¬ iy.lo ≤ k.ikey := by have := hi _ hy.lo; omega
      simp [leafLoop, leafAt, hk, stable, hl, bind, Except.bind, h1, hn, hbd, this]

theorem leafLoop_ok {t : Tree V} {G : Ghost} (h : Inv0 t G) (k : Key) {x : Nat} {i : Info} (hx : G x = some i)
    (hk : t.kind x = some .leaf) (hr : InR k.ikey i) (f : Nat) :
    ∃ r, leafLoop t k (f + 2) x = .ok r ∧ LRes t G i.pfx.bytes k r := by
  have main : ∀ {x : Nat} {i : Info} (hx : G x = some i) (hk : t.kind x = some .leaf) (f : Nat),
      (∃ j, j < (t.body x).n ∧ Matches ((t.body x).ent j) k) →
      ∃ r, leafLoop t k (f + 1) x = .ok r ∧ LRes t G i.pfx.bytes k r := by
    intro x i hx hk f hm
    obtain ⟨j, hj, hm⟩ := hm
    rcases leafLoop_hit h k hx hk f hj hm with ⟨v, h1, h2, h3⟩ | ⟨q, h1, h2, h3⟩
    · exact ⟨_, h3, .value x i hx hk rfl j hj hm h1 v h2⟩
    · exact ⟨_, h3, .descend x i hx hk rfl j hj hm h1 q h2⟩
  by_cases hm : ∃ j, j < (t.body x).n ∧ Matches ((t.body x).ent j) k
  · exact main hx hk (f + 1) hm
  · have hm' : ∀ j, j < (t.body x).n → ¬ Matches ((t.body x).ent j) k := fun j hj hmm => hm ⟨j, hj, hmm⟩
    by_cases hlt : ltHi k.ikey i.hi
    · exact ⟨_, leafLoop_miss h k hx hk (f + 1) hm' hlt, .absent⟩
    · have heq : i.hi = some k.ikey := by
        cases hh : i.hi with
        | none => exact absurd (by rw [hh]; simp) hlt
        | some z =>
          have := hr.hi z hh
          have : ¬ k.ikey < z := by intro hz; exact hlt (by rw [hh]; simpa using hz)
          congr 1; omega
      have hlo := hr.eq heq
      cases hn : t.next x with
      | none => have := (h.link x i hk hx).nonext hn; rw [heq] at this; cases this
      | some y =>
        obtain ⟨iy, hy, hbd⟩ := next_bound h hk hx hn
        have hylo : iy.lo = k.ikey := by have := hy.lo; rw [heq] at this; exact (Option.some.inj this).symm
        have hyhi : ltHi k.ikey iy.hi := by
          have := hy.tight (Or.inl (by rw [heq, hlo]))
          rwa [hylo] at this
        have hl : t.locked x = false := by
          have := h.locks x (h.lt hx)
          cases hq : t.locked x with
          | false => rfl
          | true => exact absurd (this.1 hq) id
        have hstep : leafLoop t k (f + 2) x = leafLoop t k (f + 1) y := by
          rcases search_get_spec (h.body x i hk hx) k with ⟨j', h1, h2, h3⟩ | ⟨h1, h2⟩
          · exact absurd h3 (hm' j' h1)
          · rw [leafLoop]
            simp [leafAt, hk, stable, hl, bind, Except.bind, h1, hn, hbd, hylo]
        rw [hstep, ← hy.pfx]
        by_cases hm2 : ∃ j, j < (t.body y).n ∧ Matches ((t.body y).ent j) k
        · exact main hy.dom hy.kind f hm2
        · exact ⟨_, leafLoop_miss h k hy.dom hy.kind f (fun j hj hmm => hm2 ⟨j, hj, hmm⟩) hyhi, .absent⟩

/-! ## Keys and entries -/

/-- The key bytes `d` are those of the entry `e` of a leaf in the layer `pfx`. -/
def EntKey (pfx : Bytes) (e : Ent V) (d : Bytes) : Prop :=
  ∃ r, d = pfx ++ r ∧ chunk r = e.ikey ∧
    ((e.klx = r.length ∧ r.length ≤ 8) ∨ (e.klx = 64 ∧ 8 < r.length ∧ e.suf = some (r.drop 8)))

/-- Some leaf holds the value `v` for the key `d`. -/
def Has (t : Tree V) (G : Ghost) (d : Bytes) (v : V) : Prop :=
  ∃ x i j, G x = some i ∧ t.kind x = some .leaf ∧ j < (t.body x).n ∧ ((t.body x).ent j).cell = .val v ∧
    EntKey i.pfx.bytes ((t.body x).ent j) d

/-- A value entry matching the search is the entry of the key. -/
theorem entKey_of_matches {k : Key} {d : Bytes} {n : Nat} (hk : k.Sees d n) {pfx : Bytes} (hp : pfx = d.take (8 * n))
    {e : Ent V} (hm : Matches e k) (hl : e.klx ≠ 128) : EntKey pfx e d := by
  obtain ⟨h1, h2⟩ := hm
  have h2 : e.klx = searchKlx k ∧ (e.klx = 64 → e.suf = some k.suffix) := by
    rcases h2 with h | h
    · exact h
    · exact absurd h.1 hl
  refine ⟨d.drop (8 * n), by rw [hp, List.take_append_drop], by rw [h1, hk.ikey_eq], ?_⟩
  have hs := hk.hasSuffix
  rcases searchKlx_cases k with ⟨a1, a2, _⟩ | ⟨a1, a2, a3, _⟩
  · right
    rw [a1] at hs
    have := of_decide_eq_true hs.symm
    refine ⟨by omega, this, ?_⟩
    rw [h2.2 (by omega), hk.suffix]
  · left
    rw [h2.1, a2, hk.currentLen]
    rw [hk.currentLen] at a3
    exact ⟨rfl, a3⟩

/-- Conversely. -/
theorem matches_of_entKey {k : Key} {d : Bytes} {n : Nat} (hk : k.Sees d n) {pfx : Bytes} (hp : pfx.length = 8 * n)
    {e : Ent V} (he : EntKey pfx e d) : Matches e k ∧ pfx = d.take (8 * n) ∧ e.klx = searchKlx k := by
  obtain ⟨r, h1, h2, h3⟩ := he
  have hr : d.drop (8 * n) = r := by rw [h1, List.drop_append_of_le_length (by omega)]; simp [← hp]
  have ht : pfx = d.take (8 * n) := by rw [h1, List.take_append_of_le_length (by omega)]; simp [← hp]
  have hs := hk.hasSuffix
  rw [hr] at hs
  have hkl : e.klx = searchKlx k ∧ (e.klx = 64 → e.suf = some k.suffix) := by
    rcases searchKlx_cases k with ⟨a1, a2, _⟩ | ⟨a1, a2, a3, _⟩
    · rw [a1] at hs
      have := of_decide_eq_true hs.symm
      rcases h3 with h | h
      · omega
      · exact ⟨by omega, fun _ => by rw [h.2.2, hk.suffix, hr]⟩
    · rw [hk.currentLen, hr] at a2 a3
      rcases h3 with h | h
      · exact ⟨by omega, fun h' => by omega⟩
      · omega
  exact ⟨⟨by rw [← h2, hk.ikey_eq, hr], Or.inl hkl⟩, ht, hkl.1⟩

/-- Following a sublayer pointer extends the prefix by the next eight key bytes. -/
theorem layer_pfx {G : Ghost} {pfx : Bytes} {b : Leaf V} (h : LayerOK G pfx b) {j : Nat} (hj : j < b.n) {q : Nat}
    (hc : (b.ent j).cell = .layer q) {k : Key} {d : Bytes} {n : Nat} (hk : k.Sees d n) (hp : pfx = d.take (8 * n))
    (hn : 8 * n + 8 < d.length) (hi : (b.ent j).ikey = k.ikey) : ∃ iq, G q = some iq ∧ iq.pfx.bytes = d.take (8 * (n + 1)) := by
  obtain ⟨iq, c, h1, h2, h3, h4⟩ := h j hj q hc
  refine ⟨iq, h1, ?_⟩
  have : c.take 8 = (d.drop (8 * n)).take 8 :=
    Verif.Spec.take_eq_of_chunk_eq _ _ (by omega) (by simp; omega) (by rw [h4, hi, hk.ikey_eq])
  rw [List.take_of_length_le (by omega)] at this
  rw [h2, hp, this, ← List.take_add]
  congr 1

theorem getLoop_ok {t : Tree V} {G : Ghost} (h : Inv0 t G) (d : Bytes) : ∀ f n k x i, k.Sees d n → G x = some i →
    i.pfx.bytes = d.take (8 * n) → 8 * n ≤ d.length → d.length / 8 < n + f →
    ∃ r, getLoop t f k x = .ok r ∧ ∀ v, r = some v → Has t G d v := by
  intro f
  induction f with
  | zero => intro n k x i _ _ _ h1 h2; omega
  | succ f ih =>
    intro n k x i hk hx hp hn hf
    obtain ⟨r, ir, y, iy, h1, h2, h3, h4, h5, h6, h7, h8, h9⟩ := enter h k.ikey hx
    obtain ⟨f', hf'⟩ : ∃ f', chainFuel = f' + 2 := ⟨0, rfl⟩
    obtain ⟨res, g1, g2⟩ := leafLoop_ok h k h6 h7 h9 f'
    rw [h8, hp] at g2
    cases g2 with
    | absent =>
      refine ⟨none, ?_, fun v e => by cases e⟩
      simp [getLoop, h1, h5, hf', g1, bind, Except.bind]
    | value z iz hz hkz hpz j hj hm hl v hc =>
      refine ⟨some v, ?_, fun v' e => ?_⟩
      · simp [getLoop, h1, h5, hf', g1, bind, Except.bind]
      · cases e
        exact ⟨z, iz, j, hz, hkz, hj, hc, entKey_of_matches hk hpz hm hl⟩
    | descend z iz hz hkz hpz j hj hm hl q hc =>
      have hs : k.hasSuffix = true := by
        rcases hm.2 with h | h
        · rcases searchKlx_cases k with ⟨a1, a2, _⟩ | ⟨a1, a2, a3, _⟩
          · exact a1
          · omega
        · exact h.2
      have hlen : 8 * n + 8 < d.length := by
        have := hk.hasSuffix
        rw [hs] at this
        have := of_decide_eq_true this.symm
        simp at this; omega
      obtain ⟨iq, hq, hqp⟩ := layer_pfx (h.layer z iz hkz hz) hj hc hk hpz hlen hm.1
      obtain ⟨r', g3, g4⟩ := ih (n + 1) k.shift q iq hk.shift hq hqp (by omega) (by omega)
      refine ⟨r', ?_, g4⟩
      simp [getLoop, h1, h5, hf', g1, bind, Except.bind, g3]

/-- `get` on a well-formed tree answers, and only with values held for that very key. -/
theorem get_ok {t : Tree V} {G : Ghost} (h : Inv0 t G) (d : Bytes) (hd : d.length ≤ 256) :
    ∃ r, get' t d = .ok r ∧ ∀ v, r = some v → Has t G d v := by
  obtain ⟨i, hi, hp, _⟩ := h.root
  have hnew : Key.new? d = some (Key.mk' d) := by simp [Key.new?, maxKeyLength, hd]
  have := getLoop_ok h d (d.length / 8 + 1) 0 (Key.mk' d) t.root i (Key.mk'_sees d) hi (by simpa using hp) (by omega) (by omega)
  simpa [get', hnew] using this

end Verif.Tree
