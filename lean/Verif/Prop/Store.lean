import Verif.Proof.StoreRun
set_option linter.unusedSimpArgs false
set_option linter.unusedVariables false
/-!
# Ownership of values (C32), references (C34, C43), storage modes (C35, C44)

`run S new ops` runs a program of inserts, lookups, guards, references, handle drops and collector steps on the tree whose
slots hold pointers into a heap with owner counts; `arcOps` is `MassTree`, `boxOps` is `MassTree24Inline`.  An operation on
a released cell (a use after free or a double free) is an error value of the model, so `= .ok _` rules it out.
-/
namespace Verif.Store
open Verif.Spec
open Verif.Tree (Tree Leaf Cell Err Tidy refs G0)

set_option linter.unusedSectionVars false
variable {V : Type} [Inhabited V]

theorem run_append {O : Type} {S : SlotOps V O} : ∀ (xs ys : List (Op V)) {s s1 : St V O} {as : List (Ans V)},
    run S s xs = .ok (s1, as) → run S s (xs ++ ys) = (run S s1 ys).map (fun r => (r.1, as ++ r.2)) := by
  intro xs
  induction xs with
  | nil => intro ys s s1 as h; cases h; simp only [List.nil_append]; cases run S s ys <;> rfl
  | cons x xs ih =>
    intro ys s s1 as h
    simp only [run, bind, Except.bind] at h
    split at h
    · cases h
    · next p hp =>
      split at h
      · cases h
      · next q hq =>
        cases h
        simp only [List.cons_append, run, hp, ih ys hq, bind, Except.bind]
        cases run S q.1 ys <;> rfl

theorem reach_state {O : Type} {S : SlotOps V O} (L : Lawful S) {ops : List (Op V)} (hl : LegalProg ops) {s : St V O} {as : List (Ans V)}
    (e : run S new ops = .ok (s, as)) : ∃ tv G, Good L (insertsOf ops) tv G s := by
  obtain ⟨s', as', tv', G', h1, h2, -⟩ := run_good L (fun _ => False) ops (new_good L) hl.keys (by simpa using hl.len)
  rw [e] at h1; cases h1
  exact ⟨tv', G', by simpa using h2⟩

theorem ownL_arc (os : List Nat) (a : Nat) : (arcLawful V).ownL os a = os.count a := by
  induction os with
  | nil => rfl
  | cons o os ih =>
    have h : (arcLawful V).own o a = if a = o then 1 else 0 := rfl
    simp only [Lawful.ownL, ih, List.count_cons, beq_iff_eq, h]
    by_cases c : a = o
    · subst c; simp; omega
    · simp [c, Ne.symm c]

theorem ownL_box (os : List V) (a : Nat) : (boxLawful V).ownL os a = 0 := by
  induction os with
  | nil => rfl
  | cons o os ih => simp only [Lawful.ownL, ih]; rfl

/-! ## C32: every value is released exactly once, and not too early -/

/-- Run any program, drop the tree, then drop the handles the program still holds: nothing fails (no use after free, no
double free), the `i`-th value passed to `insert` sits in the `i`-th heap cell, and each has been dropped exactly once. -/
theorem C32_released_exactly_once (ops : List (Op V)) (hl : LegalProg ops) :
    ∃ s as h1 h2, run (arcOps V) new ops = .ok (s, as) ∧ dropTree (arcOps V) s = .ok h1 ∧ dropOuts (arcOps V) h1 s.outs = .ok h2 ∧
      h2.fresh = (insertsOf ops).length ∧
      ∀ i (hi : i < (insertsOf ops).length), h2.val i = ((insertsOf ops)[i]).2 ∧ h2.drops i = 1 := by
  obtain ⟨s, as, tv, G, e, I, -⟩ := run_good (arcLawful V) (fun _ => False) ops (new_good _) hl.keys (by simpa using hl.len)
  simp only [List.nil_append] at I
  obtain ⟨h1, e1, x1, r1⟩ := dropTree_good I
  obtain ⟨h2, e2, x2, r2⟩ := dropOuts_good (arcLawful V) s.outs x1.wf (fun a => by rw [r1])
  obtain ⟨b1, b2⟩ := I.ids rfl
  have x := x1.trans x2
  have hf : h2.fresh = s.heap.fresh := x.keep rfl
  refine ⟨s, as, h1, h2, e, e1, e2, hf.trans b1, fun i hi => ⟨?_, ?_⟩⟩
  · rw [x.val i (by omega), b2 i hi]
  · have := x2.wf.drop i (by omega)
    have h0 : h2.rc i = 0 := by have := r1 i; have := r2 i; omega
    rw [this, if_pos h0]

/-- At every moment of a program a value has been dropped (once) iff no slot of the tree, no handle and no pending
retirement refers to it: nothing is dropped early, and nothing leaks. -/
theorem C32_dropped_iff_unreachable (ops : List (Op V)) (hl : LegalProg ops) {s : St V Nat} {as : List (Ans V)}
    (e : run (arcOps V) new ops = .ok (s, as)) {i : Nat} (hi : i < (insertsOf ops).length) :
    s.heap.drops i ≤ 1 ∧
    (s.heap.drops i = 1 ↔ (∀ l c, (s.tree.body l).cell c ≠ .val i) ∧ i ∉ s.outs ∧ i ∉ s.retired.map (·.1)) := by
  obtain ⟨tv, G, I⟩ := reach_state (arcLawful V) hl e
  obtain ⟨b1, b2⟩ := I.ids rfl
  have hd := I.wf.drop i (by omega)
  have ha := I.acc i
  rw [ownL_arc] at ha
  refine ⟨by rw [hd]; split <;> omega, ?_, ?_⟩
  · intro h1
    have h0 : s.heap.rc i = 0 := by
      by_contra c
      rw [if_neg c] at hd; omega
    rw [h0] at ha
    refine ⟨fun l c hc => ?_, fun hm => ?_, fun hm => ?_⟩
    · have := Tree.refs_pos I.tidy hc; omega
    · have := List.count_pos_iff.2 hm; omega
    · have := List.count_pos_iff.2 hm; omega
  · rintro ⟨h1, h2, h3⟩
    have r0 : refs s.tree i = 0 := by
      by_contra c
      rw [← treeDrops_count I.tidy] at c
      have hm : i ∈ treeDrops s.tree := List.count_pos_iff.1 (by omega)
      simp only [treeDrops, List.mem_flatMap, List.mem_range] at hm
      obtain ⟨p, _, hp⟩ := hm
      by_cases k : s.tree.kind p = some .leaf
      · rw [if_pos k] at hp
        simp only [leafDrops, List.mem_filterMap, List.mem_range] at hp
        obtain ⟨c, _, hc⟩ := hp
        cases hcell : (s.tree.body p).cell c with
        | null => rw [hcell] at hc; cases hc
        | val q =>
          rw [hcell] at hc
          simp only at hc
          split at hc
          · cases hc; exact h1 p c hcell
          · cases hc
        | layer q =>
          rw [hcell] at hc
          have := (I.tidy.body p).layer c q hcell
          have hn : ¬ (s.tree.body p).klx c < Tree.layerKeylenx := by simp only [Tree.layerKeylenx]; omega
          simp only [hn, if_false] at hc
          cases hc
      · rw [if_neg k] at hp; cases hp
    have h0 : s.heap.rc i = 0 := by
      rw [ha, r0, List.count_eq_zero.2 h2, List.count_eq_zero.2 h3]
    rw [hd, if_pos h0]

/-- A value the tree can still return has not been dropped; neither has one behind a handle or a live reference. -/
theorem C32_never_while_reachable (ops : List (Op V)) (hl : LegalProg ops) {s : St V Nat} {as : List (Ans V)}
    (e : run (arcOps V) new ops = .ok (s, as)) :
    (∀ k p, Tree.get' s.tree k = .ok (some p) → s.heap.drops p = 0) ∧ (∀ o, o ∈ s.outs → s.heap.drops o = 0) ∧
    (∀ g p, (g, p) ∈ s.refs → s.heap.drops p = 0) := by
  obtain ⟨tv, G, I⟩ := reach_state (arcLawful V) hl e
  have key : ∀ a, 0 < s.heap.rc a → s.heap.drops a = 0 := by
    intro a ha
    rw [I.wf.drop a (I.wf.lt ha), if_neg (by omega)]
  refine ⟨fun k p h => ?_, fun o h => ?_, fun g p h => ?_⟩
  · obtain ⟨l, c, hc⟩ := get_slot h
    have := Tree.refs_pos I.tidy hc
    exact key p (by rw [I.acc]; omega)
  · have := List.count_pos_iff.2 h
    exact key o (by rw [I.acc, ownL_arc]; omega)
  · exact key p (I.ptr h)

/-- Handles outlive the tree: after the tree is dropped every handle still held gives the value it gave before. -/
theorem C32_handles_outlive_tree (ops : List (Op V)) (hl : LegalProg ops) {s : St V Nat} {as : List (Ans V)}
    (e : run (arcOps V) new ops = .ok (s, as)) :
    ∃ h1, dropTree (arcOps V) s = .ok h1 ∧
      ∀ o, o ∈ s.outs → h1.drops o = 0 ∧ ∃ v, (arcOps V).deref s.heap o = .ok v ∧ (arcOps V).deref h1 o = .ok v := by
  obtain ⟨tv, G, I⟩ := reach_state (arcLawful V) hl e
  obtain ⟨h1, e1, x1, r1⟩ := dropTree_good I
  refine ⟨h1, e1, fun o ho => ?_⟩
  have hpos : 0 < h1.rc o := by rw [r1, ownL_arc]; exact List.count_pos_iff.2 ho
  refine ⟨by rw [x1.wf.drop o (x1.wf.lt hpos), if_neg (by omega)], _, (arcLawful V).deref I.wf (I.out ho), ?_⟩
  rw [(arcLawful V).deref x1.wf (fun a => by rw [r1]; exact (arcLawful V).ownL_mem ho a), (arcLawful V).look_ext I.wf x1 (I.out ho)]

/-- The same for boxed storage: every box that was ever allocated has been freed exactly once when the tree is gone. -/
theorem C32_boxed_released_exactly_once (ops : List (Op V)) (hl : LegalProg ops) :
    ∃ s as h1, run (boxOps V) new ops = .ok (s, as) ∧ dropTree (boxOps V) s = .ok h1 ∧ ∀ i, i < h1.fresh → h1.drops i = 1 := by
  obtain ⟨s, as, tv, G, e, I, -⟩ := run_good (boxLawful V) (fun _ => False) ops (new_good _) hl.keys (by simpa using hl.len)
  obtain ⟨h1, e1, x1, r1⟩ := dropTree_good I
  refine ⟨s, as, h1, e, e1, fun i hi => ?_⟩
  rw [x1.wf.drop i hi, if_pos (by rw [r1, ownL_box])]

/-! ## C34: `get_ref` and `get` -/

/-- The two search loops return the same pointer in every tree, reachable or not. -/
theorem C34_same_pointer (t : Tree Nat) (k : Bytes) : getRefRaw t k = Tree.get' t k := getRefRaw_eq t k

/-- In every state a program can reach, `get_ref` under an active guard and `get` of the same key both succeed and show the
same value. -/
theorem C34_get_ref_agrees (ops : List (Op V)) (hl : LegalProg ops) {s : St V Nat} {as : List (Ans V)}
    (e : run (arcOps V) new ops = .ok (s, as)) {g : Nat} (hg : g ∈ s.guards) {k : Bytes} (hk : k.length ≤ 256) :
    ∃ v s1 s2, step (arcOps V) s (.get k) = .ok (s1, .val v) ∧ step (arcOps V) s (.getRef g k) = .ok (s2, .val v) := by
  obtain ⟨tv, G, I⟩ := reach_state (arcLawful V) hl e
  obtain ⟨r, h1, h2, h3⟩ := I.lookup hk
  obtain ⟨s1, a1, tv1, G1, e1, -, -, w1, -⟩ := step_good (arcLawful V) (fun _ => False) I (.get k) hk hl.len
  obtain ⟨s2, a2, tv2, G2, e2, -, -, w2, -⟩ := step_good (arcLawful V) (fun _ => False) I (.getRef g k) hk hl.len
  simp only [TSt.step, view, h2, hg, if_true, bind, Except.bind] at w1 w2
  obtain ⟨-, rfl⟩ := Prod.mk.inj (Except.ok.inj w1)
  obtain ⟨-, rfl⟩ := Prod.mk.inj (Except.ok.inj w2)
  exact ⟨_, s1, s2, e1, e2⟩

/-- The same for boxed storage. -/
theorem C34_boxed_get_ref_agrees (ops : List (Op V)) (hl : LegalProg ops) {s : St V V} {as : List (Ans V)}
    (e : run (boxOps V) new ops = .ok (s, as)) {g : Nat} (hg : g ∈ s.guards) {k : Bytes} (hk : k.length ≤ 256) :
    ∃ v s1 s2, step (boxOps V) s (.get k) = .ok (s1, .val v) ∧ step (boxOps V) s (.getRef g k) = .ok (s2, .val v) := by
  obtain ⟨tv, G, I⟩ := reach_state (boxLawful V) hl e
  obtain ⟨r, h1, h2, h3⟩ := I.lookup hk
  obtain ⟨s1, a1, tv1, G1, e1, -, -, w1, -⟩ := step_good (boxLawful V) (fun _ => False) I (.get k) hk hl.len
  obtain ⟨s2, a2, tv2, G2, e2, -, -, w2, -⟩ := step_good (boxLawful V) (fun _ => False) I (.getRef g k) hk hl.len
  simp only [TSt.step, view, h2, hg, if_true, bind, Except.bind] at w1 w2
  obtain ⟨-, rfl⟩ := Prod.mk.inj (Except.ok.inj w1)
  obtain ⟨-, rfl⟩ := Prod.mk.inj (Except.ok.inj w2)
  exact ⟨_, s1, s2, e1, e2⟩

/-! ## C43: references under a guard -/

/-- A reference obtained under a guard stays usable, and shows the same value, whatever happens until that guard is
dropped: updates and removal of its entry, layer creation, splits, collector activity, other guards coming and going. -/
theorem C43_reference_stays_valid (ops1 ops2 : List (Op V)) (hl : LegalProg (ops1 ++ ops2)) {s1 s2 : St V Nat} {as1 as2 : List (Ans V)}
    (e1 : run (arcOps V) new ops1 = .ok (s1, as1)) (e2 : run (arcOps V) s1 ops2 = .ok (s2, as2)) {g p : Nat}
    (hr : (g, p) ∈ s1.refs) (hg : .leave g ∉ ops2) :
    (g, p) ∈ s2.refs ∧ s2.heap.drops p = 0 ∧ ∃ v, s1.heap.read p = .ok v ∧ s2.heap.read p = .ok v := by
  have hl1 : LegalProg ops1 := ⟨fun o ho => hl.keys o (List.mem_append_left _ ho), by
    have := hl.len; rw [insertsOf_append, List.length_append] at this; omega⟩
  obtain ⟨tv, G, I1⟩ := reach_state (arcLawful V) hl1 e1
  obtain ⟨s2', as2', tv2, G2, e2', I2, ⟨-, hv⟩, -⟩ := run_good (arcLawful V) (fun _ => False) ops2 I1
    (fun o ho => hl.keys o (List.mem_append_right _ ho)) (by have := hl.len; rw [insertsOf_append] at this; exact this)
  rw [e2] at e2'; cases e2'
  have hr2 := run_ref e2 hr hg
  have p1 := I1.ptr hr
  have p2 := I2.ptr hr2
  refine ⟨hr2, by rw [I2.wf.drop p (I2.wf.lt p2), if_neg (by omega)], s1.heap.val p, ?_, ?_⟩
  · unfold Heap.read; rw [if_neg (by omega)]
  · unfold Heap.read; rw [if_neg (by omega), hv p (I1.wf.lt p1)]

/-- The same for boxed storage. -/
theorem C43_boxed_reference_stays_valid (ops1 ops2 : List (Op V)) (hl : LegalProg (ops1 ++ ops2)) {s1 s2 : St V V} {as1 as2 : List (Ans V)}
    (e1 : run (boxOps V) new ops1 = .ok (s1, as1)) (e2 : run (boxOps V) s1 ops2 = .ok (s2, as2)) {g p : Nat}
    (hr : (g, p) ∈ s1.refs) (hg : .leave g ∉ ops2) :
    (g, p) ∈ s2.refs ∧ s2.heap.drops p = 0 ∧ ∃ v, s1.heap.read p = .ok v ∧ s2.heap.read p = .ok v := by
  have hl1 : LegalProg ops1 := ⟨fun o ho => hl.keys o (List.mem_append_left _ ho), by
    have := hl.len; rw [insertsOf_append, List.length_append] at this; omega⟩
  obtain ⟨tv, G, I1⟩ := reach_state (boxLawful V) hl1 e1
  obtain ⟨s2', as2', tv2, G2, e2', I2, ⟨-, hv⟩, -⟩ := run_good (boxLawful V) (fun _ => False) ops2 I1
    (fun o ho => hl.keys o (List.mem_append_right _ ho)) (by have := hl.len; rw [insertsOf_append] at this; exact this)
  rw [e2] at e2'; cases e2'
  have hr2 := run_ref e2 hr hg
  have p1 := I1.ptr hr
  have p2 := I2.ptr hr2
  refine ⟨hr2, by rw [I2.wf.drop p (I2.wf.lt p2), if_neg (by omega)], s1.heap.val p, ?_, ?_⟩
  · unfold Heap.read; rw [if_neg (by omega)]
  · unfold Heap.read; rw [if_neg (by omega), hv p (I1.wf.lt p1)]

/-! ## C44: the storage mode cannot be observed -/

/-- Every program gets the same answers from `MassTree` (reference-counted values) and from `MassTree24Inline` (boxed,
copied values), without any assumption on the keys. -/
theorem C44_modes_agree (ops : List (Op V)) (hl : LegalProg ops) :
    ∃ s1 s2 as, run (arcOps V) new ops = .ok (s1, as) ∧ run (boxOps V) new ops = .ok (s2, as) := by
  obtain ⟨s1, as1, tv1, G1, e1, -, -, w1, -⟩ := run_good (arcLawful V) (fun _ => False) ops (new_good _) hl.keys (by simpa using hl.len)
  obtain ⟨s2, as2, tv2, G2, e2, -, -, w2, -⟩ := run_good (boxLawful V) (fun _ => False) ops (new_good _) hl.keys (by simpa using hl.len)
  rw [view_new] at w1 w2
  rw [w1] at w2
  have := (Prod.mk.inj (Except.ok.inj w2)).2
  exact ⟨s1, s2, as1, e1, this ▸ e2⟩

/-- If no two keys of the program clash, both answer every program like a finite map in which handles and references are
plain values. -/
theorem C44_programs_see_a_finite_map (ops : List (Op V)) (hl : LegalProg ops) (hc : NoClash (keysOf (insertsOf ops))) :
    (∃ s, run (arcOps V) new ops = .ok (s, PSt.new.run ops)) ∧ ∃ s, run (boxOps V) new ops = .ok (s, PSt.new.run ops) := by
  constructor
  · obtain ⟨s, as, tv, G, e, -, -, -, x⟩ := run_good (arcLawful V) (keysOf (insertsOf ops)) ops (new_good _) hl.keys (by simpa using hl.len)
    obtain ⟨-, rfl⟩ := x hc (fun p hp => ⟨p.2, hp⟩) (Tree.exact_empty _) PSt.new (new_rel _)
    exact ⟨s, e⟩
  · obtain ⟨s, as, tv, G, e, -, -, -, x⟩ := run_good (boxLawful V) (keysOf (insertsOf ops)) ops (new_good _) hl.keys (by simpa using hl.len)
    obtain ⟨-, rfl⟩ := x hc (fun p hp => ⟨p.2, hp⟩) (Tree.exact_empty _) PSt.new (new_rel _)
    exact ⟨s, e⟩

/-! ## C35: `MassTreeIndex` -/

/-- Whatever the collector does in between, a sequence of calls on a `MassTreeIndex` gets the replies of the tree of plain
values, and holds nothing back: dropping it releases every value exactly once. -/
theorem C35_index_is_the_tree (cs : List (List Nat × Call V)) (hl : Legal (inserts (cs.map (·.2))))
    (hk : ∀ k, k ∈ lookups (cs.map (·.2)) → k.length ≤ 256) :
    ∃ s rs h1, indexRun new cs = .ok (s, rs) ∧ Tree.exec Tree.empty (cs.map (·.2)) = .ok rs ∧ dropTree (arcOps V) s = .ok h1 ∧
      h1.fresh = (inserts (cs.map (·.2))).length ∧ ∀ i, i < h1.fresh → h1.drops i = 1 := by
  obtain ⟨s, rs, tv, G, e, x, I, h0⟩ := index_good cs (new_good _) rfl (by simpa using hl.2) hl.1 hk
  obtain ⟨h1, e1, x1, r1⟩ := dropTree_good I
  refine ⟨s, rs, h1, e, x, e1, (x1.keep rfl).trans (by simpa using (I.ids rfl).1), fun i hi => ?_⟩
  rw [x1.wf.drop i hi, if_pos (by rw [r1, h0]; rfl)]

/-- If no two inserted keys clash, the index is a finite map. -/
theorem C35_index_is_a_finite_map (cs : List (List Nat × Call V)) (hl : Legal (inserts (cs.map (·.2))))
    (hk : ∀ k, k ∈ lookups (cs.map (·.2)) → k.length ≤ 256) (hc : NoClash (keysOf (inserts (cs.map (·.2))))) :
    ∃ s, indexRun new cs = .ok (s, FMap.empty.run (cs.map (·.2))) := by
  obtain ⟨s, rs, h1, e, x, -⟩ := C35_index_is_the_tree cs hl hk
  rw [Tree.C04_refines_finite_map _ hl hk hc] at x
  cases x
  exact ⟨s, e⟩

/-! ## Concrete programs -/

/-- Two clients' worth of activity: an update while a reference is held, a layer creation, forty more inserts. -/
def sampleProgram : List (Op Nat) :=
  [.enter, .insert [1, 2, 3, 4, 5, 6, 7, 8, 9] 10, .getRef 0 [1, 2, 3, 4, 5, 6, 7, 8, 9], .insert [1, 2, 3, 4, 5, 6, 7, 8, 9] 20,
    .reclaim 0, .useRef 0, .insert [1, 2, 3, 4, 5, 6, 7, 8, 10] 30, .get [1, 2, 3, 4, 5, 6, 7, 8, 9], .useOut 0, .useRef 0] ++
  ((List.range 40).map fun i => .insert [i.toUInt8, 1, 2, 3, 4, 5, 6, 7, 8] (100 + i)) ++
  [.useRef 0, .leave 0, .reclaim 1, .reclaim 0, .dropOut 1, .len, .isEmpty]

theorem samplep_legal : LegalProg sampleProgram := by
  refine ⟨?_, by decide +kernel⟩
  intro op hop
  simp only [sampleProgram, List.mem_append, List.mem_cons, List.mem_map, List.not_mem_nil, or_false] at hop
  rcases hop with (h | ⟨i, _, rfl⟩) | h
  · rcases h with rfl | rfl | rfl | rfl | rfl | rfl | rfl | rfl | rfl | rfl <;> first | trivial | (show _ ≤ _; decide)
  · show _ ≤ _; simp
  · rcases h with rfl | rfl | rfl | rfl | rfl | rfl | rfl <;> trivial

theorem samplep_noClash : NoClash (keysOf (insertsOf sampleProgram)) :=
  Tree.noClash_of_length 9 _ (by
    rintro k ⟨v, hv⟩
    have : ∀ p ∈ insertsOf sampleProgram, p.1.length = 9 := by decide +kernel
    exact this (k, v) hv)

example : ∃ s, run (arcOps Nat) new sampleProgram = .ok (s, PSt.new.run sampleProgram) :=
  (C44_programs_see_a_finite_map _ samplep_legal samplep_noClash).1

/-- While the guard is held the collector cannot release the replaced value (`drops 0 = 0`) and the reference still shows 10;
after the guard is dropped and the handle is gone the same cell is released. -/
def dropsAfter (ops : List (Op Nat)) (i : Nat) : Option Nat :=
  match run (arcOps Nat) new ops with
  | .ok (s, _) => some (s.heap.drops i)
  | .error _ => none

def answers (ops : List (Op Nat)) : Option (List (Ans Nat)) :=
  match run (arcOps Nat) new ops with
  | .ok (_, as) => some as
  | .error _ => none

def guardedProgram : List (Op Nat) :=
  [.enter, .insert [1] 10, .getRef 0 [1], .insert [1] 20, .dropOut 0, .reclaim 0, .useRef 0]

example : answers guardedProgram = some [.unit, .val none, .val (some 10), .val (some 10), .unit, .unit, .val (some 10)] ∧
    dropsAfter guardedProgram 0 = some 0 ∧ dropsAfter (guardedProgram ++ [.leave 0, .reclaim 0]) 0 = some 1 := by
  decide +kernel

end Verif.Store
