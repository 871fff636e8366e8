import Verif.Proof.StoreInsert
import Verif.Prop.Tree
set_option linter.unusedSimpArgs false
set_option linter.unusedVariables false
/-!
# Programs: the ownership invariant holds in every reachable state
-/
namespace Verif.Store
open Verif.Spec
open Verif.Internode (upd)
open Verif.Perm (size get)
open Verif.Tree (Tree Leaf Cell Err Tidy TidyB refs leafRefs ind PermOK Ghost Reach Exact runFrom history_step)

variable {V O : Type}

/-! ## `get_ref` and `get` -/

theorem refLeafLoop_eq (t : Tree Nat) (k : Key) : ∀ n p, refLeafLoop t k n p = Tree.leafLoop t k n p
  | 0, _ => rfl
  | n + 1, p => by
    have ih := refLeafLoop_eq t k n
    simp only [refLeafLoop, Tree.leafLoop, ih, bind, Except.bind]
    cases Tree.leafAt t p with
    | error _ => rfl
    | ok b =>
      simp only
      cases Tree.stable t p with
      | error _ => rfl
      | ok _ =>
        simp only
        cases Tree.searchGet b k 0 (size 5 b.perm) with
        | none =>
          simp only
          cases t.next p with
          | none => rfl
          | some q => simp only
        | some s => simp only; split <;> cases b.cell s <;> rfl

theorem refLoop_eq (t : Tree Nat) : ∀ n k lr, refLoop t n k lr = Tree.getLoop t n k lr
  | 0, _, _ => rfl
  | n + 1, k, lr => by
    have ih := refLoop_eq t n
    simp only [refLoop, Tree.getLoop, refLeafLoop_eq, ih, bind, Except.bind]
    cases Tree.maybeParent t (Tree.walkFuel t) lr with
    | error _ => rfl
    | ok r =>
      simp only
      cases Tree.reachLeaf t r k.ikey (Tree.walkFuel t) r with
      | error _ => rfl
      | ok p =>
        simp only
        cases Tree.leafLoop t k Tree.chainFuel p with
        | error _ => rfl
        | ok x => cases x <;> rfl

theorem getRefRaw_eq (t : Tree Nat) (d : Bytes) : getRefRaw t d = Tree.get' t d := by
  unfold getRefRaw Tree.get'
  cases Key.new? d with
  | none => rfl
  | some k => exact refLoop_eq t _ k _

/-- A lookup returns a pointer that some slot holds. -/
theorem get_slot {t : Tree Nat} {d : Bytes} {p : Nat} (h : Tree.get' t d = .ok (some p)) : ∃ l s, (t.body l).cell s = .val p := by
  have leaf : ∀ k n q v, Tree.leafLoop t k n q = .ok (.value v) → ∃ l s, (t.body l).cell s = .val v := by
    intro k n
    induction n with
    | zero => intro q v h; cases h
    | succ n ih =>
      intro q v h
      simp only [Tree.leafLoop, bind, Except.bind] at h
      unfold Tree.leafAt at h
      split at h
      · cases h
      · next b hb =>
        have hb : b = t.body q := by
          cases hk : t.kind q with
          | none => rw [hk] at hb; cases hb
          | some kk => rw [hk] at hb; cases kk <;> cases hb; rfl
        subst hb
        split at h
        · cases h
        · split at h
          · next s hs =>
            split at h
            · split at h
              · cases h
              · cases h
            · cases hc : (t.body q).cell s with
              | null => rw [hc] at h; cases h
              | layer z => rw [hc] at h; cases h
              | val z => rw [hc] at h; cases h; exact ⟨q, s, hc⟩
          · cases hn : t.next q with
            | none => rw [hn] at h; cases h
            | some z =>
              rw [hn] at h
              simp only at h
              split at h
              · cases h
              · split at h
                · exact ih _ _ h
                · cases h
  have loop : ∀ n k lr v, Tree.getLoop t n k lr = .ok (some v) → ∃ l s, (t.body l).cell s = .val v := by
    intro n
    induction n with
    | zero => intro k lr v h; cases h
    | succ n ih =>
      intro k lr v h
      simp only [Tree.getLoop, bind, Except.bind] at h
      split at h
      · cases h
      · split at h
        · cases h
        · split at h
          · cases h
          · next hx =>
            split at h
            · cases h
            · cases h; exact leaf _ _ _ _ hx
            · exact ih _ _ _ h
  unfold Tree.get' at h
  split at h
  · cases h
  · exact loop _ _ _ _ h

/-! ## The invariant -/

/-- Owners accounted for by a list of outputs. -/
def Lawful.ownL {S : SlotOps V O} (L : Lawful S) : List O → Nat → Nat
  | [], _ => 0
  | o :: os, a => L.own o a + L.ownL os a

theorem Lawful.ownL_mem {S : SlotOps V O} (L : Lawful S) {os : List O} {o : O} (h : o ∈ os) (a : Nat) : L.own o a ≤ L.ownL os a := by
  induction os with
  | nil => cases h
  | cons x os ih =>
    simp only [Lawful.ownL]
    rcases List.mem_cons.1 h with rfl | h
    · omega
    · have := ih h; omega

theorem Lawful.ownL_erase {S : SlotOps V O} (L : Lawful S) : ∀ {os : List O} {i : Nat} {o : O}, os[i]? = some o → ∀ a,
    L.ownL (os.eraseIdx i) a + L.own o a = L.ownL os a
  | [], i, o, h, a => by simp at h
  | x :: os, 0, o, h, a => by simp at h; subst h; simp [Lawful.ownL]; omega
  | x :: os, i + 1, o, h, a => by
    simp at h
    have := L.ownL_erase h a
    simp [Lawful.ownL]
    omega

/-- The invariant: `H` inserts so far, `tv` the tree of values they build. -/
structure Good {S : SlotOps V O} (L : Lawful S) (H : History V) (tv : Tree V) (G : Ghost) (s : St V O) : Prop where
  wf : WF s.heap
  tidy : Tidy s.tree
  acc : ∀ a, s.heap.rc a = refs s.tree a + L.ownL s.outs a + (s.retired.map (·.1)).count a
  map : s.tree.map s.heap.val = tv
  built : ∃ os, runFrom Tree.empty H = .ok (tv, os)
  reach : Reach H tv G
  live : ∀ g p, (g, p) ∈ s.refs → g ∈ s.guards ∧ (0 < refs s.tree p ∨ ∃ gs, (p, gs) ∈ s.retired ∧ g ∈ gs)
  ids : L.grow = false → s.heap.fresh = H.length ∧ ∀ i (hi : i < H.length), s.heap.val i = (H[i]).2

theorem Good.ptr {S : SlotOps V O} {L : Lawful S} {H : History V} {tv : Tree V} {G : Ghost} {s : St V O} (I : Good L H tv G s) {g p : Nat}
    (h : (g, p) ∈ s.refs) : 0 < s.heap.rc p := by
  rw [I.acc]
  rcases (I.live g p h).2 with h | ⟨gs, h, _⟩
  · omega
  · have : 0 < (s.retired.map (·.1)).count p := List.count_pos_iff.2 (List.mem_map.2 ⟨_, h, rfl⟩)
    omega

theorem Good.out {S : SlotOps V O} {L : Lawful S} {H : History V} {tv : Tree V} {G : Ghost} {s : St V O} (I : Good L H tv G s) {o : O}
    (h : o ∈ s.outs) (a : Nat) : L.own o a ≤ s.heap.rc a := by
  have := L.ownL_mem h a
  rw [I.acc]; omega

/-- A program on the tree of values: handles and references are values, nothing is ever released. -/
structure TSt (V : Type) where
  tree : Tree V
  guards : List Nat
  nextGuard : Nat
  outs : List V
  refs : List (Nat × V)

def TSt.step (s : TSt V) : Op V → Except Err (TSt V × Ans V)
  | .enter => .ok ({ s with guards := s.nextGuard :: s.guards, nextGuard := s.nextGuard + 1 }, .unit)
  | .leave g =>
    if g ∈ s.guards then
      .ok ({ s with guards := s.guards.filter (· ≠ g), refs := s.refs.filter (·.1 ≠ g) }, .unit)
    else .ok (s, .skip)
  | .insert k v => do
    let (t, r) ← Tree.insert s.tree k v
    .ok ({ s with tree := t, outs := r.toList ++ s.outs }, .val r)
  | .get k => do
    let r ← Tree.get' s.tree k
    .ok ({ s with outs := r.toList ++ s.outs }, .val r)
  | .getRef g k =>
    if g ∈ s.guards then do
      let r ← Tree.get' s.tree k
      .ok ({ s with refs := r.toList.map (fun v => (g, v)) ++ s.refs }, .val r)
    else .ok (s, .skip)
  | .useRef i =>
    match s.refs[i]? with
    | none => .ok (s, .skip)
    | some (_, v) => .ok (s, .val (some v))
  | .useOut i =>
    match s.outs[i]? with
    | none => .ok (s, .skip)
    | some v => .ok (s, .val (some v))
  | .dropOut i =>
    match s.outs[i]? with
    | none => .ok (s, .skip)
    | some _ => .ok ({ s with outs := s.outs.eraseIdx i }, .unit)
  | .reclaim _ => .ok (s, .unit)
  | .len => .ok (s, .num (Tree.len s.tree))
  | .isEmpty => do
    let b ← Tree.isEmpty s.tree
    .ok (s, .bool b)

/-- The program on values that corresponds to a state. -/
def view {S : SlotOps V O} (L : Lawful S) (tv : Tree V) (s : St V O) : TSt V :=
  ⟨tv, s.guards, s.nextGuard, s.outs.map (L.look s.heap), s.refs.map (fun x => (x.1, s.heap.val x.2))⟩

/-- The same program on a finite map. -/
structure Rel {S : SlotOps V O} (L : Lawful S) (H : History V) (s : St V O) (ps : PSt V) : Prop where
  guards : ps.guards = s.guards
  next : ps.nextGuard = s.nextGuard
  outs : ps.outs = s.outs.map (L.look s.heap)
  refs : ps.refs = s.refs.map (fun x => (x.1, s.heap.val x.2))
  get : ∀ k, ps.map.get k = mapAfter H k
  size : ps.map.size = distinctKeys H

theorem outs_ext {S : SlotOps V O} {L : Lawful S} {H : History V} {tv : Tree V} {G : Ghost} {s : St V O} (I : Good L H tv G s) {g : Bool} {h' : Heap V}
    (x : Ext g s.heap h') : s.outs.map (L.look h') = s.outs.map (L.look s.heap) :=
  List.map_congr_left fun o ho => L.look_ext I.wf x (I.out ho)

theorem refs_ext {S : SlotOps V O} {L : Lawful S} {H : History V} {tv : Tree V} {G : Ghost} {s : St V O} (I : Good L H tv G s) {g : Bool} {h' : Heap V}
    (x : Ext g s.heap h') : s.refs.map (fun y => (y.1, h'.val y.2)) = s.refs.map (fun y => (y.1, s.heap.val y.2)) :=
  List.map_congr_left fun y hy => by rw [x.val y.2 (I.wf.lt (I.ptr (g := y.1) hy))]

theorem ids_ext {S : SlotOps V O} {L : Lawful S} {H : History V} {tv : Tree V} {G : Ghost} {s : St V O} (I : Good L H tv G s) {h' : Heap V}
    (x : Ext L.grow s.heap h') : L.grow = false → h'.fresh = H.length ∧ ∀ i (hi : i < H.length), h'.val i = (H[i]).2 := by
  intro hg
  obtain ⟨a, b⟩ := I.ids hg
  refine ⟨(x.keep hg).trans a, fun i hi => ?_⟩
  rw [x.val i (by omega), b i hi]

theorem treemap_ext {S : SlotOps V O} {L : Lawful S} {H : History V} {tv : Tree V} {G : Ghost} {s : St V O} (I : Good L H tv G s) {g : Bool} {h' : Heap V}
    (x : Ext g s.heap h') : s.tree.map h'.val = tv :=
  (map_ext I.wf I.tidy (fun a => by rw [I.acc]; omega) x).trans I.map

/-- A lookup on a good state, together with its value. -/
theorem Good.lookup {S : SlotOps V O} {L : Lawful S} {H : History V} {tv : Tree V} {G : Ghost} {s : St V O} (I : Good L H tv G s) {k : Bytes}
    (hk : k.length ≤ 256) : ∃ r, Tree.get' s.tree k = .ok r ∧ Tree.get' tv k = .ok (r.map s.heap.val) ∧ ∀ p, r = some p → 0 < refs s.tree p := by
  obtain ⟨rv, h1, -⟩ := Tree.get_ok I.reach.inv k hk
  have h2 : Tree.get' (s.tree.map s.heap.val) k = _ := Tree.get_map s.heap.val s.tree k
  rw [I.map, h1] at h2
  cases h3 : Tree.get' s.tree k with
  | error e => rw [h3] at h2; cases h2
  | ok r =>
    rw [h3] at h2
    simp only [Except.map] at h2
    refine ⟨r, rfl, by rw [h1]; exact h2, fun p hp => ?_⟩
    subst hp
    obtain ⟨l, c, hc⟩ := get_slot h3
    exact Tree.refs_pos I.tidy hc

/-- One operation on a good state. -/
theorem step_good {S : SlotOps V O} (L : Lawful S) (K : Bytes → Prop) {H : History V} {tv : Tree V} {G : Ghost} {s : St V O}
    (I : Good L H tv G s) (op : Op V) (ho : op.legal) (hlen : H.length < 2 ^ 64) :
    ∃ s' a tv' G', step S s op = .ok (s', a) ∧ Good L (H ++ insertsOf [op]) tv' G' s' ∧
      (s.heap.fresh ≤ s'.heap.fresh ∧ ∀ b, b < s.heap.fresh → s'.heap.val b = s.heap.val b) ∧
      (view L tv s).step op = .ok (view L tv' s', a) ∧
      (NoClash K → (∀ p, p ∈ insertsOf [op] → K p.1) → Exact K H tv G → ∀ ps, Rel L H s ps →
        Exact K (H ++ insertsOf [op]) tv' G' ∧ Rel L (H ++ insertsOf [op]) s' (ps.step op).1 ∧ a = (ps.step op).2) := by
  have H0 : H ++ [] = H := List.append_nil H
  cases op with
  | enter =>
    refine ⟨_, _, tv, G, rfl, ?_, ⟨Nat.le_refl _, fun _ _ => rfl⟩, rfl, ?_⟩
    · simp only [insertsOf, H0]
      exact ⟨I.wf, I.tidy, I.acc, I.map, I.built, I.reach, fun g p h => ⟨List.mem_cons_of_mem _ (I.live g p h).1, (I.live g p h).2⟩, I.ids⟩
    · intro _ _ X ps R
      simp only [insertsOf, H0]
      exact ⟨X, ⟨by simp [PSt.step, R.guards, R.next], by simp [PSt.step, R.next], R.outs, R.refs, R.get, R.size⟩, rfl⟩
  | leave g =>
    simp only [step]
    by_cases hg : g ∈ s.guards
    · rw [if_pos hg]
      refine ⟨_, _, tv, G, rfl, ?_, ⟨Nat.le_refl _, fun _ _ => rfl⟩, (by simp only [TSt.step, view, hg, if_true, List.filter_map]; rfl), ?_⟩
      · simp only [insertsOf, H0]
        refine ⟨I.wf, I.tidy, I.acc, I.map, I.built, I.reach, fun g' p h => ?_, I.ids⟩
        simp only [List.mem_filter, decide_eq_true_eq, ne_eq, decide_not, Bool.not_eq_eq_eq_not, Bool.not_true, decide_eq_false_iff_not] at h
        refine ⟨?_, (I.live g' p h.1).2⟩
        simp only [List.mem_filter, decide_eq_true_eq, ne_eq, decide_not, Bool.not_eq_eq_eq_not, Bool.not_true, decide_eq_false_iff_not]
        exact ⟨(I.live g' p h.1).1, h.2⟩
      · intro _ _ X ps R
        simp only [insertsOf, H0, PSt.step, R.guards, if_pos hg]
        refine ⟨X, ⟨rfl, R.next, R.outs, ?_, R.get, R.size⟩, (by first | rfl | trivial)⟩
        simp only [R.refs, List.filter_map]
        congr 1
    · rw [if_neg hg]
      refine ⟨_, _, tv, G, rfl, ?_, ⟨Nat.le_refl _, fun _ _ => rfl⟩, (by simp only [TSt.step, view, hg, if_false]), ?_⟩
      · simp only [insertsOf, H0]; exact I
      · intro _ _ X ps R
        simp only [insertsOf, H0, PSt.step, R.guards, if_neg hg]
        exact ⟨X, R, (by first | rfl | trivial)⟩
  | insert k v =>
    have hk : k.length ≤ 256 := ho
    obtain ⟨tv', rv, G', g1, g2, g3, g4⟩ := history_step K I.reach hlen hk v
    simp only [step, bind, Except.bind]
    have hnew : Key.new? k = some (Key.mk' k) := by simp [Key.new?, maxKeyLength, hk]
    unfold Tree.insert at g1
    rw [hnew] at g1
    simp only at g1
    obtain ⟨x1, lk1, r1, id1⟩ := L.intoOutput I.wf v
    have m1 : s.tree.map (S.intoOutput s.heap v).1.val = tv := treemap_ext I x1
    have o1 := outs_ext I x1
    have f1 := refs_ext I x1
    have hv0 := x1.val
    have hf0 := x1.fresh
    generalize hy : S.intoOutput s.heap v = y at x1 lk1 r1 id1 m1 o1 f1 hv0 hf0
    obtain ⟨h1, o⟩ := y
    simp only at x1 lk1 r1 id1 m1 o1 f1 hv0 hf0
    have hroot : tv.root = s.tree.root := by rw [← I.map]; rfl
    rw [hroot, ← m1, ← lk1] at g1
    obtain ⟨x, e, P⟩ := insertLoop_sim L (ext := fun a => L.ownL s.outs a + (s.retired.map (·.1)).count a) x1.wf _ I.tidy
      (fun a => by rw [r1, I.acc]; omega) g1
    have hraw : insertRaw S s.heap s.tree k v = .ok x := by
      unfold insertRaw
      rw [hnew]
      show insertLoop S (S.intoOutput s.heap v).2 _ (S.intoOutput s.heap v).1 _ _ _ = _
      rw [hy]
      exact e
    rw [hraw]
    obtain ⟨h2, t2, rs, r⟩ := x
    have hrefs : ∀ g p, (g, p) ∈ s.refs → g ∈ s.guards ∧ (0 < refs t2 p ∨ ∃ gs, (p, gs) ∈ rs.map (·, s.guards) ++ s.retired ∧ g ∈ gs) := by
      intro g p h
      obtain ⟨a1, a2⟩ := I.live g p h
      refine ⟨a1, ?_⟩
      rcases a2 with a2 | ⟨gs, a2, a3⟩
      · rcases P.held p a2 with a4 | a4
        · exact Or.inl a4
        · exact Or.inr ⟨s.guards, List.mem_append_left _ (List.mem_map.2 ⟨p, a4, rfl⟩), a1⟩
      · exact Or.inr ⟨gs, List.mem_append_right _ a2, a3⟩
    have hret : ∀ a, ((rs.map (·, s.guards) ++ s.retired).map (·.1)).count a = rs.count a + (s.retired.map (·.1)).count a := by
      intro a
      rw [List.map_append, List.count_append, List.map_map]
      congr 1
      congr 1
      exact List.map_id'' (fun _ => rfl) rs
    have hids : L.grow = false → h2.fresh = (H ++ [(k, v)]).length ∧ ∀ i (hi : i < (H ++ [(k, v)]).length), h2.val i = ((H ++ [(k, v)])[i]).2 := by
      intro hg
      obtain ⟨b1, b2⟩ := I.ids hg
      obtain ⟨b3, b4⟩ := id1 hg
      have b5 := P.heap.keep hg
      have b6 := P.heap.val
      simp only at b5 b6
      refine ⟨by simp; omega, fun i hi => ?_⟩
      simp at hi
      rw [b6 i (by omega)]
      by_cases c : i < H.length
      · rw [hv0 i (by omega), b2 i c, List.getElem_append_left c]
      · have : i = s.heap.fresh := by omega
        subst this
        rw [b4]
        simp [List.getElem_append_right, b1]
    have hmono : ∀ b, b < s.heap.fresh → h2.val b = s.heap.val b := by
      intro b hb
      have := P.heap.val b (by omega)
      simp only at this
      rw [this, hv0 b hb]
    have hown2 : ∀ q ∈ s.outs, ∀ a, L.own q a ≤ h1.rc a := fun q hq a => by
      have := I.out hq a; have := r1 a; omega
    have o2 : s.outs.map (L.look h2) = s.outs.map (L.look s.heap) := by
      rw [← o1]
      exact List.map_congr_left fun q hq => L.look_ext x1.wf P.heap (hown2 q hq)
    have f2 : s.refs.map (fun y => (y.1, h2.val y.2)) = s.refs.map (fun y => (y.1, s.heap.val y.2)) :=
      List.map_congr_left fun y hy => by rw [hmono y.2 (I.wf.lt (I.ptr (g := y.1) hy))]
    obtain ⟨os, hos⟩ := I.built
    have hins : Tree.insert tv k v = .ok (tv', rv) := by
      unfold Tree.insert
      rw [hnew]
      simp only
      rw [hroot, ← m1, ← lk1]
      exact g1
    have hbuilt : ∃ os, runFrom Tree.empty (H ++ [(k, v)]) = .ok (tv', os) :=
      ⟨_, Tree.runFrom_snoc _ _ _ _ hos (r := rv) hins⟩
    simp only
    cases hr : r with
    | none =>
      subst hr
      have hrv : rv = none := P.ret.symm
      refine ⟨_, _, tv', G', rfl, ?_, ⟨Nat.le_trans hf0 P.heap.fresh, hmono⟩, (by simp only [TSt.step, view, hins, bind, Except.bind, hrv, Option.toList, List.nil_append, o2, f2]), ?_⟩
      · refine ⟨P.heap.wf, P.tidy, fun a => ?_, P.map, hbuilt, g2, hrefs, hids⟩
        have := P.acc a
        simp only [Lawful.ownO] at this
        simp only [hret]
        omega
      · intro hK hks X ps R
        obtain ⟨X', hrX⟩ := g4 hK (hks (k, v) (by simp [insertsOf])) X
        obtain ⟨n1, n2⟩ := Tree.fmap_after H ps.map R.get R.size k v
        have hn : ps.map.get k = none := by rw [R.get, ← hrX, hrv]
        refine ⟨X', ⟨R.guards, R.next, ?_, ?_, n1, n2⟩, ?_⟩
        · simp only [PSt.step, hn, Option.toList, List.nil_append, o2]; exact R.outs
        · simp only [PSt.step, f2]; exact R.refs
        · simp only [PSt.step, hn]
    | some oo =>
      subst hr
      have hrv : rv = some (L.look h2 oo) := P.ret.symm
      have hoo : ∀ a, L.own oo a ≤ h2.rc a := fun a => by have := P.acc a; simp only [Lawful.ownO] at this; omega
      have hde : S.deref h2 oo = .ok (L.look h2 oo) := L.deref P.heap.wf hoo
      simp only [hde]
      refine ⟨_, _, tv', G', rfl, ?_, ⟨Nat.le_trans hf0 P.heap.fresh, hmono⟩, (by simp only [TSt.step, view, hins, bind, Except.bind, hrv, Option.toList, List.cons_append, List.nil_append, List.map_cons, o2, f2]), ?_⟩
      · refine ⟨P.heap.wf, P.tidy, fun a => ?_, P.map, hbuilt, g2, hrefs, hids⟩
        have := P.acc a
        simp only [Lawful.ownO] at this
        simp only [hret, Lawful.ownL]
        omega
      · intro hK hks X ps R
        obtain ⟨X', hrX⟩ := g4 hK (hks (k, v) (by simp [insertsOf])) X
        obtain ⟨n1, n2⟩ := Tree.fmap_after H ps.map R.get R.size k v
        have hn : ps.map.get k = some (L.look h2 oo) := by rw [R.get, ← hrX, hrv]
        refine ⟨X', ⟨R.guards, R.next, ?_, ?_, n1, n2⟩, ?_⟩
        · simp only [PSt.step, hn, Option.toList, List.cons_append, List.nil_append, List.map_cons, o2]; rw [R.outs]
        · simp only [PSt.step, f2]; exact R.refs
        · simp only [PSt.step, hn]
  | get k =>
    obtain ⟨r, e1, e2, hp⟩ := I.lookup (k := k) ho
    simp only [step, getRaw, e1, bind, Except.bind]
    cases hr : r with
    | none =>
      subst hr
      refine ⟨_, _, tv, G, rfl, by simp only [insertsOf, H0]; exact I, ⟨Nat.le_refl _, fun _ _ => rfl⟩, (by simp only [TSt.step, view, e2, bind, Except.bind, Option.map, Option.toList, List.nil_append]), ?_⟩
      intro hK _ X ps R
      have hm := X.get I.reach hK (d := k) ho
      rw [e2] at hm
      have hm : ps.map.get k = none := by rw [R.get]; exact (Except.ok.inj hm).symm
      simp only [insertsOf, H0, PSt.step, hm]
      exact ⟨X, ⟨R.guards, R.next, R.outs, R.refs, R.get, R.size⟩, (by first | rfl | trivial)⟩
    | some p =>
      subst hr
      have hpos := hp p rfl
      obtain ⟨h1, o, f1, x1, lk1, r1⟩ := L.fromRaw I.wf (p := p) (by rw [I.acc]; omega)
      have hoo : ∀ a, L.own o a ≤ h1.rc a := fun a => by rw [r1]; omega
      simp only [f1, L.deref x1.wf hoo]
      refine ⟨_, _, tv, G, rfl, ?_, ⟨x1.fresh, fun b hb => x1.val b hb⟩, (by simp only [TSt.step, view, e2, bind, Except.bind, Option.map, Option.toList, List.cons_append, List.nil_append, List.map_cons, lk1, outs_ext I x1, refs_ext I x1]), ?_⟩
      · simp only [insertsOf, H0]
        refine ⟨x1.wf, I.tidy, fun a => ?_, treemap_ext I x1, I.built, I.reach, I.live, ids_ext I x1⟩
        have := r1 a; have := I.acc a
        simp only [Lawful.ownL]
        omega
      · intro hK _ X ps R
        have hm := X.get I.reach hK (d := k) ho
        rw [e2] at hm
        have hm : ps.map.get k = some (L.look h1 o) := by rw [R.get, lk1]; exact (Except.ok.inj hm).symm
        simp only [insertsOf, H0, PSt.step, hm]
        refine ⟨X, ⟨R.guards, R.next, ?_, ?_, R.get, R.size⟩, (by first | rfl | trivial)⟩
        · simp only [Option.toList, List.cons_append, List.nil_append, List.map_cons, outs_ext I x1, R.outs]
        · simp only [refs_ext I x1]; exact R.refs
  | getRef g k =>
    obtain ⟨r, e1, e2, hp⟩ := I.lookup (k := k) ho
    simp only [step]
    by_cases hg : g ∈ s.guards
    · rw [if_pos hg]
      simp only [getRefRaw_eq, e1, bind, Except.bind]
      cases hr : r with
      | none =>
        subst hr
        refine ⟨_, _, tv, G, rfl, by simp only [insertsOf, H0]; exact I, ⟨Nat.le_refl _, fun _ _ => rfl⟩, (by simp only [TSt.step, view, hg, if_true, e2, bind, Except.bind, Option.map, Option.toList, List.map_nil, List.nil_append]), ?_⟩
        intro hK _ X ps R
        have hm := X.get I.reach hK (d := k) ho
        rw [e2] at hm
        have hm : ps.map.get k = none := by rw [R.get]; exact (Except.ok.inj hm).symm
        simp only [insertsOf, H0, PSt.step, hm, R.guards, if_pos hg]
        exact ⟨X, ⟨rfl, R.next, R.outs, R.refs, R.get, R.size⟩, (by first | rfl | trivial)⟩
      | some p =>
        subst hr
        have hpos := hp p rfl
        have hrd : s.heap.read p = .ok (s.heap.val p) := by
          unfold Heap.read
          rw [if_neg (by rw [I.acc]; omega)]
        simp only [hrd]
        refine ⟨_, _, tv, G, rfl, ?_, ⟨Nat.le_refl _, fun _ _ => rfl⟩, (by simp only [TSt.step, view, hg, if_true, e2, bind, Except.bind, Option.map, Option.toList, List.map_nil, List.cons_append, List.nil_append, List.map_cons]), ?_⟩
        · simp only [insertsOf, H0]
          refine ⟨I.wf, I.tidy, I.acc, I.map, I.built, I.reach, fun g' p' h => ?_, I.ids⟩
          rcases List.mem_cons.1 h with h | h
          · cases h; exact ⟨hg, Or.inl hpos⟩
          · exact I.live g' p' h
        · intro hK _ X ps R
          have hm := X.get I.reach hK (d := k) ho
          rw [e2] at hm
          have hm : ps.map.get k = some (s.heap.val p) := by rw [R.get]; exact (Except.ok.inj hm).symm
          simp only [insertsOf, H0, PSt.step, hm, R.guards, if_pos hg]
          refine ⟨X, ⟨rfl, R.next, R.outs, ?_, R.get, R.size⟩, (by first | rfl | trivial)⟩
          simp only [Option.toList, List.map_cons, List.map_nil, List.cons_append, List.nil_append, R.refs]
    · rw [if_neg hg]
      refine ⟨_, _, tv, G, rfl, by simp only [insertsOf, H0]; exact I, ⟨Nat.le_refl _, fun _ _ => rfl⟩, (by simp only [TSt.step, view, hg, if_false]), ?_⟩
      intro _ _ X ps R
      simp only [insertsOf, H0, PSt.step, R.guards, if_neg hg]
      exact ⟨X, R, (by first | rfl | trivial)⟩
  | useRef i =>
    simp only [step]
    cases hi : s.refs[i]? with
    | none =>
      refine ⟨_, _, tv, G, rfl, by simp only [insertsOf, H0]; exact I, ⟨Nat.le_refl _, fun _ _ => rfl⟩, (by simp only [TSt.step, view, List.getElem?_map, hi, Option.map]), ?_⟩
      intro _ _ X ps R
      have hps : ps.refs[i]? = none := by rw [R.refs, List.getElem?_map, hi]; rfl
      simp only [insertsOf, H0, PSt.step, hps]
      exact ⟨X, R, (by first | rfl | trivial)⟩
    | some y =>
      obtain ⟨g, p⟩ := y
      have hrd : s.heap.read p = .ok (s.heap.val p) := by
        unfold Heap.read
        rw [if_neg (by have := I.ptr (g := g) (p := p) (List.mem_of_getElem? hi); omega)]
      simp only [hrd, bind, Except.bind]
      refine ⟨_, _, tv, G, rfl, by simp only [insertsOf, H0]; exact I, ⟨Nat.le_refl _, fun _ _ => rfl⟩, (by simp only [TSt.step, view, List.getElem?_map, hi, Option.map]), ?_⟩
      intro _ _ X ps R
      have hps : ps.refs[i]? = some (g, s.heap.val p) := by rw [R.refs, List.getElem?_map, hi]; rfl
      simp only [insertsOf, H0, PSt.step, hps]
      exact ⟨X, R, (by first | rfl | trivial)⟩
  | useOut i =>
    simp only [step]
    cases hi : s.outs[i]? with
    | none =>
      refine ⟨_, _, tv, G, rfl, by simp only [insertsOf, H0]; exact I, ⟨Nat.le_refl _, fun _ _ => rfl⟩, (by simp only [TSt.step, view, List.getElem?_map, hi, Option.map]), ?_⟩
      intro _ _ X ps R
      have hps : ps.outs[i]? = none := by rw [R.outs, List.getElem?_map, hi]; rfl
      simp only [insertsOf, H0, PSt.step, hps]
      exact ⟨X, R, (by first | rfl | trivial)⟩
    | some o =>
      have hrd := L.deref I.wf (I.out (List.mem_of_getElem? hi))
      simp only [hrd, bind, Except.bind]
      refine ⟨_, _, tv, G, rfl, by simp only [insertsOf, H0]; exact I, ⟨Nat.le_refl _, fun _ _ => rfl⟩, (by simp only [TSt.step, view, List.getElem?_map, hi, Option.map]), ?_⟩
      intro _ _ X ps R
      have hps : ps.outs[i]? = some (L.look s.heap o) := by rw [R.outs, List.getElem?_map, hi]; rfl
      simp only [insertsOf, H0, PSt.step, hps]
      exact ⟨X, R, (by first | rfl | trivial)⟩
  | dropOut i =>
    simp only [step]
    cases hi : s.outs[i]? with
    | none =>
      refine ⟨_, _, tv, G, rfl, by simp only [insertsOf, H0]; exact I, ⟨Nat.le_refl _, fun _ _ => rfl⟩, (by simp only [TSt.step, view, List.getElem?_map, hi, Option.map]), ?_⟩
      intro _ _ X ps R
      have hps : ps.outs[i]? = none := by rw [R.outs, List.getElem?_map, hi]; rfl
      simp only [insertsOf, H0, PSt.step, hps]
      exact ⟨X, R, (by first | rfl | trivial)⟩
    | some o =>
      obtain ⟨h1, e1, x1, r1⟩ := L.dropOut I.wf (I.out (List.mem_of_getElem? hi))
      simp only [e1, bind, Except.bind]
      refine ⟨_, _, tv, G, rfl, ?_, ⟨x1.fresh, fun b hb => x1.val b hb⟩, (by simp only [TSt.step, view, List.getElem?_map, hi, Option.map, ← List.eraseIdx_map, outs_ext I x1, refs_ext I x1]), ?_⟩
      · simp only [insertsOf, H0]
        refine ⟨x1.wf, I.tidy, fun a => ?_, treemap_ext I x1, I.built, I.reach, I.live, ids_ext I x1⟩
        have := r1 a; have := I.acc a; have := L.ownL_erase hi a
        simp only
        omega
      · intro _ _ X ps R
        have hps : ps.outs[i]? = some (L.look s.heap o) := by rw [R.outs, List.getElem?_map, hi]; rfl
        simp only [insertsOf, H0, PSt.step, hps]
        refine ⟨X, ⟨R.guards, R.next, ?_, ?_, R.get, R.size⟩, (by first | rfl | trivial)⟩
        · simp only [R.outs]
          rw [← List.eraseIdx_map]
          rw [outs_ext I x1]
        · simp only [refs_ext I x1]; exact R.refs
  | reclaim i =>
    simp only [step]
    cases hi : s.retired[i]? with
    | none =>
      refine ⟨_, _, tv, G, rfl, by simp only [insertsOf, H0]; exact I, ⟨Nat.le_refl _, fun _ _ => rfl⟩, rfl, ?_⟩
      intro _ _ X ps R
      simp only [insertsOf, H0, PSt.step]
      exact ⟨X, R, (by first | rfl | trivial)⟩
    | some y =>
      obtain ⟨p, gs⟩ := y
      simp only
      by_cases hg : ∃ g, g ∈ gs ∧ g ∈ s.guards
      · rw [if_pos hg]
        refine ⟨_, _, tv, G, rfl, by simp only [insertsOf, H0]; exact I, ⟨Nat.le_refl _, fun _ _ => rfl⟩, rfl, ?_⟩
        intro _ _ X ps R
        simp only [insertsOf, H0, PSt.step]
        exact ⟨X, R, (by first | rfl | trivial)⟩
      · rw [if_neg hg]
        have hmem : (p, gs) ∈ s.retired := List.mem_of_getElem? hi
        have hpos : 0 < (s.retired.map (·.1)).count p := List.count_pos_iff.2 (List.mem_map.2 ⟨_, hmem, rfl⟩)
        obtain ⟨h1, e1, x1, r1⟩ := L.cleanup I.wf (p := p) (by rw [I.acc]; omega)
        simp only [e1, bind, Except.bind]
        have hcount : ∀ a, ((s.retired.eraseIdx i).map (·.1)).count a + one a p = (s.retired.map (·.1)).count a := by
          intro a
          have : ∀ (l : List (Nat × List Nat)) i, l[i]? = some (p, gs) →
              ((l.eraseIdx i).map (·.1)).count a + one a p = (l.map (·.1)).count a := by
            intro l
            induction l with
            | nil => intro i h; simp at h
            | cons z l ih =>
              intro i h
              cases i with
              | zero =>
                simp at h; subst h
                simp only [List.eraseIdx_zero, List.tail_cons, List.map_cons, List.count_cons, one, beq_iff_eq]
                by_cases c : a = p
                · subst c; simp
                · simp [c, Ne.symm c]
              | succ i =>
                simp at h
                have := ih i h
                simp only [List.eraseIdx_cons_succ, List.map_cons, List.count_cons]
                omega
          exact this _ _ hi
        refine ⟨_, _, tv, G, rfl, ?_, ⟨x1.fresh, fun b hb => x1.val b hb⟩, (by simp only [TSt.step, view, outs_ext I x1, refs_ext I x1]), ?_⟩
        · simp only [insertsOf, H0]
          refine ⟨x1.wf, I.tidy, fun a => ?_, treemap_ext I x1, I.built, I.reach, fun g' p' h => ?_, ids_ext I x1⟩
          · have := r1 a; have := I.acc a; have := hcount a
            simp only
            omega
          · obtain ⟨a1, a2⟩ := I.live g' p' h
            refine ⟨a1, ?_⟩
            rcases a2 with a2 | ⟨gs', a2, a3⟩
            · exact Or.inl a2
            · refine Or.inr ⟨gs', ?_, a3⟩
              rw [List.mem_eraseIdx_iff_getElem?]
              obtain ⟨j, hj⟩ := List.mem_iff_getElem?.1 a2
              refine ⟨j, ?_, hj⟩
              rintro rfl
              rw [hi] at hj
              cases hj
              exact hg ⟨g', a3, a1⟩
        · intro _ _ X ps R
          simp only [insertsOf, H0, PSt.step]
          refine ⟨X, ⟨R.guards, R.next, ?_, ?_, R.get, R.size⟩, (by first | rfl | trivial)⟩
          · simp only [outs_ext I x1]; exact R.outs
          · simp only [refs_ext I x1]; exact R.refs
  | len =>
    refine ⟨_, _, tv, G, rfl, by simp only [insertsOf, H0]; exact I, ⟨Nat.le_refl _, fun _ _ => rfl⟩, (by simp only [TSt.step, view, ← I.map]; rfl), ?_⟩
    intro _ _ X ps R
    simp only [insertsOf, H0, PSt.step]
    refine ⟨X, R, ?_⟩
    rw [R.size, ← X.count, ← I.map]
    rfl
  | isEmpty =>
    have h1 := I.reach.isEmpty
    have h2 : Tree.isEmpty s.tree = .ok H.isEmpty := by rw [← h1, ← I.map]; rfl
    simp only [step, h2, bind, Except.bind]
    refine ⟨_, _, tv, G, rfl, by simp only [insertsOf, H0]; exact I, ⟨Nat.le_refl _, fun _ _ => rfl⟩, (by simp only [TSt.step, view, h1, bind, Except.bind]), ?_⟩
    intro _ _ X ps R
    simp only [insertsOf, H0, PSt.step]
    refine ⟨X, R, ?_⟩
    rw [R.size]
    congr 1
    rw [Bool.eq_iff_iff]
    simp [List.isEmpty_iff, Tree.distinctKeys_eq_zero]

end Verif.Store
