import Verif.Proof.StoreState
set_option linter.unusedSimpArgs false
set_option linter.unusedVariables false
/-!
# Whole programs, and dropping the tree
-/
namespace Verif.Store
open Verif.Spec
open Verif.Internode (upd)
open Verif.Tree (Tree Leaf Cell Err Tidy TidyB refs leafRefs ind Ghost G0 Reach Exact runFrom)

variable {V O : Type}

theorem new_good [Inhabited V] {S : SlotOps V O} (L : Lawful S) : Good L [] (Tree.empty : Tree V) G0 (new : St V O) where
  wf := ⟨fun _ _ => ⟨rfl, rfl⟩, fun a ha => (by cases ha)⟩
  tidy := Tree.tidy_empty
  acc := fun a => by simp [new, Heap.empty, Lawful.ownL, Tree.refs_empty]
  map := Tree.empty_map _
  built := ⟨[], rfl⟩
  reach := Tree.reach_empty
  live := fun _ _ h => (by cases h)
  ids := fun _ => ⟨rfl, fun i hi => (by cases hi)⟩

theorem new_rel [Inhabited V] {S : SlotOps V O} (L : Lawful S) : Rel L [] (new : St V O) PSt.new :=
  ⟨rfl, rfl, rfl, rfl, fun _ => rfl, rfl⟩

theorem insertsOf_cons (op : Op V) (ops : List (Op V)) : insertsOf (op :: ops) = insertsOf [op] ++ insertsOf ops := by
  cases op <;> rfl

theorem insertsOf_append (xs ys : List (Op V)) : insertsOf (xs ++ ys) = insertsOf xs ++ insertsOf ys := by
  induction xs with
  | nil => rfl
  | cons x xs ih => rw [List.cons_append, insertsOf_cons, insertsOf_cons x xs, ih, List.append_assoc]

/-- A program on the tree of values. -/
def TSt.run (s : TSt V) : List (Op V) → Except Err (TSt V × List (Ans V))
  | [] => .ok (s, [])
  | op :: ops => do
    let (s, a) ← s.step op
    let (s, as) ← s.run ops
    .ok (s, a :: as)

/-- The empty tree of values. -/
def TSt.new : TSt V := ⟨Tree.empty, [], 0, [], []⟩

theorem view_new [Inhabited V] {S : SlotOps V O} (L : Lawful S) : view L Tree.empty (new : St V O) = TSt.new := rfl

/-- A program run from a good state. -/
theorem run_good {S : SlotOps V O} (L : Lawful S) (K : Bytes → Prop) : ∀ (ops : List (Op V)) {H : History V} {tv : Tree V} {G : Ghost} {s : St V O},
    Good L H tv G s → (∀ op, op ∈ ops → op.legal) → (H ++ insertsOf ops).length < 2 ^ 64 →
    ∃ s' as tv' G', run S s ops = .ok (s', as) ∧ Good L (H ++ insertsOf ops) tv' G' s' ∧
      (s.heap.fresh ≤ s'.heap.fresh ∧ ∀ b, b < s.heap.fresh → s'.heap.val b = s.heap.val b) ∧
      (view L tv s).run ops = .ok (view L tv' s', as) ∧
      (NoClash K → (∀ p, p ∈ insertsOf ops → K p.1) → Exact K H tv G → ∀ ps, Rel L H s ps →
        Exact K (H ++ insertsOf ops) tv' G' ∧ as = ps.run ops) := by
  intro ops
  induction ops with
  | nil =>
    intro H tv G s I _ _
    refine ⟨s, [], tv, G, rfl, by simpa [insertsOf] using I, ⟨Nat.le_refl _, fun _ _ => rfl⟩, rfl, fun _ _ X ps R => ?_⟩
    exact ⟨by simpa [insertsOf] using X, rfl⟩
  | cons op ops ih =>
    intro H tv G s I hl hlen
    rw [insertsOf_cons, ← List.append_assoc] at hlen ⊢
    obtain ⟨s1, a, tv1, G1, e1, I1, v1, w1, x1⟩ := step_good L K I op (hl op (by simp)) (by simp at hlen; omega)
    obtain ⟨s2, as, tv2, G2, e2, I2, v2, w2, x2⟩ := ih I1 (fun o ho => hl o (by simp [ho])) hlen
    refine ⟨s2, a :: as, tv2, G2, by simp only [run, e1, e2, bind, Except.bind], I2, ⟨Nat.le_trans v1.1 v2.1, fun b hb => ?_⟩, by simp only [TSt.run, w1, w2, bind, Except.bind], fun hK hi X ps R => ?_⟩
    · rw [v2.2 b (Nat.lt_of_lt_of_le hb v1.1), v1.2 b hb]
    · obtain ⟨X1, R1, ha⟩ := x1 hK (fun p hp => hi p (List.mem_append_left _ hp)) X ps R
      obtain ⟨X2, has⟩ := x2 hK (fun p hp => hi p (List.mem_append_right _ hp)) X1 _ R1
      exact ⟨X2, by rw [has, ha]; rfl⟩

/-- References survive every step that does not end their guard. -/
theorem step_ref {S : SlotOps V O} {s s' : St V O} {op : Op V} {a : Ans V} (e : step S s op = .ok (s', a)) {g p : Nat}
    (hr : (g, p) ∈ s.refs) (hop : op ≠ .leave g) : (g, p) ∈ s'.refs := by
  cases op with
  | leave g' =>
    simp only [step] at e
    split at e
    · cases e
      simp only [List.mem_filter]
      exact ⟨hr, by simp; rintro rfl; exact hop rfl⟩
    · cases e; exact hr
  | insert k v =>
    simp only [step, bind, Except.bind] at e
    split at e
    · cases e
    · next x _ =>
      obtain ⟨h, t, rs, r⟩ := x
      cases r with
      | none => cases e; exact hr
      | some o =>
        simp only at e
        split at e
        · cases e
        · cases e; exact hr
  | get k =>
    simp only [step, bind, Except.bind] at e
    split at e
    · cases e
    · next x _ =>
      obtain ⟨h, r⟩ := x
      cases r with
      | none => cases e; exact hr
      | some o =>
        simp only at e
        split at e
        · cases e
        · cases e; exact hr
  | getRef g' k =>
    simp only [step, bind, Except.bind] at e
    split at e
    · split at e
      · cases e
      · next r _ =>
        cases r with
        | none => cases e; exact hr
        | some o =>
          simp only at e
          split at e
          · cases e
          · cases e; exact List.mem_cons_of_mem _ hr
    · cases e; exact hr
  | enter => cases e; exact hr
  | len => cases e; exact hr
  | isEmpty =>
    simp only [step, bind, Except.bind] at e
    split at e
    · cases e
    · cases e; exact hr
  | useRef i =>
    simp only [step, bind, Except.bind] at e
    split at e
    · cases e; exact hr
    · split at e
      · cases e
      · cases e; exact hr
  | useOut i =>
    simp only [step, bind, Except.bind] at e
    split at e
    · cases e; exact hr
    · split at e
      · cases e
      · cases e; exact hr
  | dropOut i =>
    simp only [step, bind, Except.bind] at e
    split at e
    · cases e; exact hr
    · split at e
      · cases e
      · cases e; exact hr
  | reclaim i =>
    simp only [step, bind, Except.bind] at e
    split at e
    · cases e; exact hr
    · split at e
      · cases e; exact hr
      · split at e
        · cases e
        · cases e; exact hr

theorem run_ref {S : SlotOps V O} {g p : Nat} : ∀ {ops : List (Op V)} {s s' : St V O} {as : List (Ans V)},
    run S s ops = .ok (s', as) → (g, p) ∈ s.refs → .leave g ∉ ops → (g, p) ∈ s'.refs := by
  intro ops
  induction ops with
  | nil => intro s s' as e hr _; cases e; exact hr
  | cons op ops ih =>
    intro s s' as e hr hn
    simp only [run, bind, Except.bind] at e
    split at e
    · cases e
    · next x h1 =>
      obtain ⟨s1, a⟩ := x
      simp only at e
      split at e
      · cases e
      · next y h2 =>
        obtain ⟨s2, as2⟩ := y
        cases e
        exact ih h2 (step_ref h1 hr (fun h => hn (by simp [h]))) (fun h => hn (by simp [h]))

/-! ## Releasing everything -/

theorem cleanupAll_good {S : SlotOps V O} (L : Lawful S) : ∀ (ps : List Nat) {h : Heap V}, WF h → (∀ a, ps.count a ≤ h.rc a) →
    ∃ h', cleanupAll S h ps = .ok h' ∧ Ext L.grow h h' ∧ ∀ a, h'.rc a + ps.count a = h.rc a
  | [], h, w, _ => ⟨h, rfl, Ext.refl w, fun a => by simp⟩
  | p :: ps, h, w, hc => by
    have hp : 0 < h.rc p := by have := hc p; simp at this; omega
    have hcnt : ∀ a, (p :: ps).count a = ps.count a + one a p := by
      intro a
      simp only [List.count_cons, one, beq_iff_eq]
      by_cases c : a = p
      · subst c; simp
      · simp [c, Ne.symm c]
    obtain ⟨h1, e1, x1, r1⟩ := L.cleanup w hp
    obtain ⟨h2, e2, x2, r2⟩ := cleanupAll_good L ps x1.wf (fun a => by have := hc a; have := hcnt a; have := r1 a; omega)
    refine ⟨h2, by simp only [cleanupAll, e1, e2, bind, Except.bind], x1.trans x2, fun a => ?_⟩
    have := hcnt a; have := r1 a; have := r2 a; omega

theorem leafDrops_count {b : Leaf Nat} (h : TidyB b) (a : Nat) : (leafDrops b).count a = leafRefs b a := by
  have : ∀ n, ((List.range n).filterMap fun s =>
      match b.cell s with
      | .null => none
      | .val p => if b.klx s < Tree.layerKeylenx then some p else none
      | .layer q => if b.klx s < Tree.layerKeylenx then some q else none).count a =
      ∑ s ∈ Finset.range n, ind (b.cell s) a := by
    intro n
    induction n with
    | zero => simp
    | succ n ih =>
      rw [List.range_succ, List.filterMap_append, List.count_append, ih, Finset.sum_range_succ]
      congr 1
      cases hc : b.cell n with
      | null => simp [hc]
      | val p =>
        have : b.klx n < Tree.layerKeylenx := h.val n p hc
        simp only [List.filterMap_cons, hc, this, if_true, List.filterMap_nil, List.count_cons, List.count_nil, beq_iff_eq, Tree.ind_val]
        by_cases c : a = p
        · subst c; simp
        · simp [c, Ne.symm c]
      | layer q =>
        have : ¬ b.klx n < Tree.layerKeylenx := by have := h.layer n q hc; simp only [Tree.layerKeylenx]; omega
        simp [hc, this]
  exact this 24

attribute [local irreducible] Tree.leafRefs leafDrops in
theorem treeDrops_count {t : Tree Nat} (h : Tidy t) (a : Nat) : (treeDrops t).count a = refs t a := by
  have : ∀ n, ((List.range n).flatMap fun p => if t.kind p = some .leaf then leafDrops (t.body p) else []).count a =
      ∑ p ∈ Finset.range n, leafRefs (t.body p) a := by
    intro n
    induction n with
    | zero => simp
    | succ n ih =>
      rw [List.range_succ, List.flatMap_append, List.count_append, ih, Finset.sum_range_succ]
      congr 1
      simp only [List.flatMap_cons, List.flatMap_nil, List.append_nil]
      by_cases c : t.kind n = some .leaf
      · rw [if_pos c, leafDrops_count (h.body n)]
      · rw [if_neg c, h.rest n c, Tree.leafRefs_null (fun _ => rfl)]; rfl
  exact this t.fresh

theorem dropTree_good {S : SlotOps V O} {L : Lawful S} {H : History V} {tv : Tree V} {G : Ghost} {s : St V O} (I : Good L H tv G s) :
    ∃ h', dropTree S s = .ok h' ∧ Ext L.grow s.heap h' ∧ ∀ a, h'.rc a = L.ownL s.outs a := by
  obtain ⟨h1, e1, x1, r1⟩ := cleanupAll_good L (s.retired.map (·.1)) I.wf (fun a => by rw [I.acc]; omega)
  obtain ⟨h2, e2, x2, r2⟩ := cleanupAll_good L (treeDrops s.tree) x1.wf (fun a => by
    rw [treeDrops_count I.tidy]; have := r1 a; have := I.acc a; omega)
  refine ⟨h2, by simp only [dropTree, e1, e2, bind, Except.bind], x1.trans x2, fun a => ?_⟩
  have := r1 a; have := r2 a; have := I.acc a
  rw [treeDrops_count I.tidy] at *
  omega

theorem dropOuts_good {S : SlotOps V O} (L : Lawful S) : ∀ (os : List O) {h : Heap V}, WF h → (∀ a, L.ownL os a ≤ h.rc a) →
    ∃ h', dropOuts S h os = .ok h' ∧ Ext L.grow h h' ∧ ∀ a, h'.rc a + L.ownL os a = h.rc a
  | [], h, w, _ => ⟨h, rfl, Ext.refl w, fun a => by simp [Lawful.ownL]⟩
  | o :: os, h, w, hc => by
    obtain ⟨h1, e1, x1, r1⟩ := L.dropOut (o := o) w (fun a => by have := hc a; simp only [Lawful.ownL] at this; omega)
    obtain ⟨h2, e2, x2, r2⟩ := dropOuts_good L os x1.wf (fun a => by have := hc a; have := r1 a; simp only [Lawful.ownL] at *; omega)
    refine ⟨h2, by simp only [dropOuts, e1, e2, bind, Except.bind], x1.trans x2, fun a => ?_⟩
    have := r1 a; have := r2 a; simp only [Lawful.ownL]; omega

/-! ## The index wrapper -/

/-- The API operation behind a call. -/
def opOf : Call V → Op V
  | .insert k v => .insert k v
  | .get k => .get k
  | .len => .len
  | .isEmpty => .isEmpty

def replyOf : Ans V → Reply V
  | .val o => .value o
  | .num n => .count n
  | .bool b => .flag b
  | _ => .value none

theorem reclaims_good (is : List Nat) : ∀ {H : History V} {tv : Tree V} {G : Ghost} {s : St V Nat}, Good (arcLawful V) H tv G s → s.outs = [] →
    H.length < 2 ^ 64 → ∃ s' G', reclaims s is = .ok s' ∧ Good (arcLawful V) H tv G' s' ∧ s'.outs = [] := by
  induction is with
  | nil => intro H tv G s I h0 _; exact ⟨s, G, rfl, I, h0⟩
  | cons i is ih =>
    intro H tv G s I h0 hl
    obtain ⟨s1, a, tv1, G1, e1, I1, -, w1, -⟩ := step_good (arcLawful V) (fun _ => False) I (.reclaim i) trivial hl
    have ht : tv1 = tv ∧ s1.outs = [] := by
      simp only [TSt.step] at w1
      have w2 := (Prod.mk.inj (Except.ok.inj w1)).1
      have w3 := congrArg TSt.tree w2
      have w4 := congrArg TSt.outs w2
      simp only [view, h0] at w3 w4
      exact ⟨w3.symm, List.map_eq_nil_iff.1 w4.symm⟩
    obtain ⟨rfl, h1⟩ := ht
    simp only [insertsOf, List.append_nil] at I1
    obtain ⟨s2, G2, e2, I2, h2⟩ := ih I1 h1 hl
    exact ⟨s2, G2, by simp only [reclaims, e1, bind, Except.bind, e2], I2, h2⟩

/-- An operation followed by dropping the handle it returned, if any, is the wrapper's call. -/
theorem indexCall_steps {s s1 : St V Nat} {c : Call V} {a : Ans V} (h0 : s.outs = []) (e : step (arcOps V) s (opOf c) = .ok (s1, a)) :
    (s1.outs = [] ∧ indexCall s c = .ok (s1, replyOf a)) ∨
    (∃ o, s1.outs = [o] ∧ ∀ s2 a2, step (arcOps V) s1 (.dropOut 0) = .ok (s2, a2) → indexCall s c = .ok (s2, replyOf a)) := by
  cases c with
  | len => cases e; exact Or.inl ⟨h0, rfl⟩
  | isEmpty =>
    simp only [opOf, step, bind, Except.bind] at e
    simp only [indexCall, bind, Except.bind]
    split at e
    · cases e
    · next hx => cases e; exact Or.inl ⟨h0, rfl⟩
  | insert k v =>
    simp only [opOf, step, bind, Except.bind] at e
    simp only [indexCall, indexInsert, bind, Except.bind]
    split at e
    · cases e
    · next x hx =>
      obtain ⟨h, t, rs, r⟩ := x
      cases r with
      | none => cases e; exact Or.inl ⟨h0, rfl⟩
      | some o =>
        simp only at e
        split at e
        · cases e
        · next v hv =>
          cases e
          refine Or.inr ⟨o, by simp only [h0], fun s2 a2 e2 => ?_⟩
          simp only [step, List.getElem?_cons_zero, bind, Except.bind] at e2
          simp only [hv]
          split at e2
          · cases e2
          · next h' hd =>
            cases e2
            simp only [hd, List.eraseIdx_cons_zero]
            rfl
  | get k =>
    simp only [opOf, step, bind, Except.bind] at e
    simp only [indexCall, indexGet, bind, Except.bind]
    split at e
    · cases e
    · next x hx =>
      obtain ⟨h, r⟩ := x
      cases r with
      | none => cases e; exact Or.inl ⟨h0, rfl⟩
      | some o =>
        simp only at e
        split at e
        · cases e
        · next v hv =>
          cases e
          refine Or.inr ⟨o, by simp only [h0], fun s2 a2 e2 => ?_⟩
          simp only [step, List.getElem?_cons_zero, bind, Except.bind] at e2
          simp only [hv]
          split at e2
          · cases e2
          · next h' hd =>
            cases e2
            simp only [hd, List.eraseIdx_cons_zero]
            rfl

theorem inserts_cons (c : Call V) (cs : List (Call V)) : inserts (c :: cs) = insertsOf [opOf c] ++ inserts cs := by
  cases c <;> rfl

theorem index_good : ∀ (cs : List (List Nat × Call V)) {H : History V} {tv : Tree V} {G : Ghost} {s : St V Nat},
    Good (arcLawful V) H tv G s → s.outs = [] → H.length + (inserts (cs.map (·.2))).length < 2 ^ 64 →
    (∀ p, p ∈ inserts (cs.map (·.2)) → p.1.length ≤ 256) → (∀ k, k ∈ lookups (cs.map (·.2)) → k.length ≤ 256) →
    ∃ s' rs tv' G', indexRun s cs = .ok (s', rs) ∧ Tree.exec tv (cs.map (·.2)) = .ok rs ∧
      Good (arcLawful V) (H ++ inserts (cs.map (·.2))) tv' G' s' ∧ s'.outs = [] := by
  intro cs
  induction cs with
  | nil => intro H tv G s I h0 _ _ _; exact ⟨s, [], tv, G, rfl, rfl, by simpa [inserts] using I, h0⟩
  | cons c cs ih =>
    obtain ⟨is, c⟩ := c
    intro H tv G s I h0 hlen hins hlk
    obtain ⟨s0, G0', e0, I0, h00⟩ := reclaims_good is I h0 (by omega)
    have hleg : (opOf c).legal := by
      cases c with
      | insert k v => exact hins (k, v) (by simp [inserts])
      | get k => exact hlk k (by simp [lookups])
      | len => trivial
      | isEmpty => trivial
    rw [List.map_cons] at hlen hins hlk
    rw [inserts_cons] at hlen hins
    have hlk' : ∀ k, k ∈ lookups (cs.map (·.2)) → k.length ≤ 256 := fun k hk => hlk k (by cases c <;> simp [lookups, hk])
    rw [List.length_append] at hlen
    simp only at hlen hins
    obtain ⟨s1, a, tv1, G1, e1, I1, -, w1, -⟩ := step_good (arcLawful V) (fun _ => False) I0 (opOf c) hleg (by omega)
    have hexec : ∀ rs, Tree.exec tv1 (cs.map (·.2)) = .ok rs → Tree.exec tv (c :: cs.map (·.2)) = .ok (replyOf a :: rs) := by
      intro rs hrs
      cases c with
      | insert k v =>
        simp only [opOf, TSt.step, view, bind, Except.bind] at w1
        split at w1
        · cases w1
        · next x hx =>
          obtain ⟨t, r⟩ := x
          have w2 := Prod.mk.inj (Except.ok.inj w1)
          have w3 := congrArg TSt.tree w2.1
          simp only at w3
          subst w3
          simp only [Tree.exec, hx, hrs, bind, Except.bind, ← w2.2, replyOf]
      | get k =>
        simp only [opOf, TSt.step, view, bind, Except.bind] at w1
        split at w1
        · cases w1
        · next r hx =>
          have w2 := Prod.mk.inj (Except.ok.inj w1)
          have w3 := congrArg TSt.tree w2.1
          simp only at w3
          subst w3
          simp only [Tree.exec, hx, hrs, bind, Except.bind, ← w2.2, replyOf]
      | len =>
        simp only [opOf, TSt.step, view, bind, Except.bind] at w1
        have w2 := Prod.mk.inj (Except.ok.inj w1)
        have w3 := congrArg TSt.tree w2.1
        simp only at w3
        subst w3
        simp only [Tree.exec, hrs, bind, Except.bind, ← w2.2, replyOf]
      | isEmpty =>
        simp only [opOf, TSt.step, view, bind, Except.bind] at w1
        split at w1
        · cases w1
        · next r hx =>
          have w2 := Prod.mk.inj (Except.ok.inj w1)
          have w3 := congrArg TSt.tree w2.1
          simp only at w3
          subst w3
          simp only [Tree.exec, hx, hrs, bind, Except.bind, ← w2.2, replyOf]
    have hrest : ∀ {s2 : St V Nat} {G2 : Ghost}, Good (arcLawful V) (H ++ insertsOf [opOf c]) tv1 G2 s2 → s2.outs = [] →
        indexCall s0 c = .ok (s2, replyOf a) → ∃ s' rs tv' G', indexRun s ((is, c) :: cs) = .ok (s', rs) ∧
          Tree.exec tv (((is, c) :: cs).map (·.2)) = .ok rs ∧
          Good (arcLawful V) (H ++ inserts (((is, c) :: cs).map (·.2))) tv' G' s' ∧ s'.outs = [] := by
      intro s2 G2 I2 h2 hc
      obtain ⟨s3, rs, tv3, G3, e3, x3, I3, h3⟩ := ih I2 h2 (by rw [List.length_append]; omega)
        (fun p hp => hins p (List.mem_append_right _ hp)) hlk'
      refine ⟨s3, replyOf a :: rs, tv3, G3, ?_, hexec rs x3, ?_, h3⟩
      · simp only [indexRun, e0, hc, e3, bind, Except.bind]
      · rw [List.map_cons, inserts_cons, ← List.append_assoc]; exact I3
    rcases indexCall_steps h00 e1 with ⟨h1, hc⟩ | ⟨o, h1, hc⟩
    · exact hrest I1 h1 hc
    · obtain ⟨s2, a2, tv2, G2, e2, I2, -, w2, -⟩ := step_good (arcLawful V) (fun _ => False) I1 (.dropOut 0) trivial (by
        rw [List.length_append]; omega)
      have htv : tv2 = tv1 ∧ s2.outs = [] := by
        simp only [TSt.step, view, h1, List.map_cons, List.map_nil, List.getElem?_cons_zero, List.eraseIdx_cons_zero] at w2
        have w3 := (Prod.mk.inj (Except.ok.inj w2)).1
        have w4 := congrArg TSt.tree w3
        have w5 := congrArg TSt.outs w3
        simp only at w4 w5
        exact ⟨w4.symm, List.map_eq_nil_iff.1 w5.symm⟩
      obtain ⟨rfl, h2⟩ := htv
      simp only [insertsOf, List.append_nil] at I2
      exact hrest I2 h2 (hc s2 a2 e2)

end Verif.Store
