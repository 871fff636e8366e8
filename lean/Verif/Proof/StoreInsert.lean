import Verif.Proof.StoreSim
set_option linter.unusedSimpArgs false
set_option linter.unusedVariables false
/-!
# Insert with ownership: the main simulation
-/
namespace Verif.Store
open Verif.Spec (Bytes)
open Verif.Internode (upd)
open Verif.Perm (size get back backAtOffset insertFromBack swapFreeSlots params24 makeSorted24)
open Verif.Tree (Tree Leaf Cell Err Tidy TidyB refs leafRefs ind PermOK)

variable {V O : Type}

/-- What an insert leaves behind. -/
structure Post {S : SlotOps V O} (L : Lawful S) (ext : Nat → Nat) (h : Heap V) (t : Tree Nat) (tv : Tree V) (rv : Option V)
    (x : Heap V × Tree Nat × List Nat × Option O) : Prop where
  heap : Ext L.grow h x.1
  map : x.2.1.map x.1.val = tv
  ret : x.2.2.2.map (L.look x.1) = rv
  tidy : Tidy x.2.1
  acc : ∀ a, x.1.rc a = refs x.2.1 a + L.ownO x.2.2.2 a + x.2.2.1.count a + ext a
  held : ∀ a, 0 < refs t a → 0 < refs x.2.1 a ∨ a ∈ x.2.2.1

theorem count_one (p a : Nat) : List.count a [p] = one a p := by
  simp only [one, List.count_singleton, beq_iff_eq]
  by_cases h : a = p
  · subst h; simp
  · rw [if_neg h, if_neg (fun e => h e.symm)]

/-- The new entry goes to slot `s`, which is free. -/
theorem insert_new_sim {S : SlotOps V O} (L : Lawful S) {ext : Nat → Nat} {h : Heap V} {t t1 : Tree Nat} {l s : Nat} {k : Key} {o : O}
    {np : BitVec 128} (w : WF h) (ht : Tidy t) (hl : t.kind l = some .leaf) (acc : ∀ a, h.rc a = refs t a + L.own o a + ext a)
    (s1 : Tree.Shell t t1) (hs : s < 24) (hnull : (t.body l).cell s = .null)
    (hnp : PermOK np) {j0 : Nat} (hj0 : j0 < size 5 np) (hg : get 5 np j0 = s)
    (hused : ∀ j, j < (t.body l).n → ∃ j', j' < size 5 np ∧ get 5 np j' = get 5 (t.body l).perm j) :
    ∃ h1 p h2, S.toRaw h o = .ok (h1, p) ∧ S.dropOut h1 o = .ok h2 ∧
      Post L ext h t ({ Tree.unlock { t1.map h.val with body := upd (t1.map h.val).body l { Tree.assignSlot ((t.body l).map h.val) s k (L.look h o) with perm := np } } l with
        count := (t1.map h.val).count + 1 }) none
        (h2, { Tree.unlock { t1 with body := upd t1.body l { Tree.assignSlot (t.body l) s k p with perm := np } } l with count := t1.count + 1 }, [], none) := by
  have hown : ∀ a, L.own o a ≤ h.rc a := fun a => by rw [acc]; omega
  obtain ⟨h1, p, e1, x1, v1, r1⟩ := L.toRaw w hown
  have hown1 : ∀ a, L.own o a ≤ h1.rc a := fun a => by rw [r1, acc]; omega
  obtain ⟨h2, e2, x2, r2⟩ := L.dropOut x1.wf hown1
  refine ⟨h1, p, h2, e1, e2, ?_⟩
  have ex := x1.trans x2
  have ht1 := s1.tidy ht
  have hk1 : t1.kind l = some .leaf := (s1.kind l).2 hl
  have hb1 : t1.body l = t.body l := by rw [s1.body]
  obtain ⟨c1, c2⟩ := assignSlot_cell (t.body l) s k p
  have hnb : TidyB ({ Tree.assignSlot (t.body l) s k p with perm := np }) :=
    tidyB_add (b := t.body l) (ht.body l) (s := s) (p := p) hj0 hg hnp hused c1 c2
  have href : ∀ a, refs ({ Tree.unlock { t1 with body := upd t1.body l { Tree.assignSlot (t.body l) s k p with perm := np } } l with count := t1.count + 1 }) a
      = refs t a + one a p := by
    intro a
    have e := Tree.refs_setBody (t := t1) (t' := { Tree.unlock { t1 with body := upd t1.body l { Tree.assignSlot (t.body l) s k p with perm := np } } l with count := t1.count + 1 })
      (l := l) (nb := { Tree.assignSlot (t.body l) s k p with perm := np }) (ht1.lt hk1) rfl rfl a
    have e2 := Tree.leafRefs_upd (b := t.body l) (nb := { Tree.assignSlot (t.body l) s k p with perm := np }) hs c1 a
    rw [hnull, Tree.ind_null, ind_one] at e2
    rw [hb1, s1.refs ht] at e
    omega
  refine ⟨ex, ?_, rfl, ?_, fun a => ?_, fun a ha => Or.inl ?_⟩
  · have hr0 : ∀ a, refs t a ≤ h.rc a := fun a => by rw [acc]; omega
    have em : t1.map h.val = t1.map h2.val := (map_ext w ht1 (fun a => by rw [s1.refs ht]; exact hr0 a) ex).symm
    have eb : (t.body l).map h.val = (t.body l).map h2.val := (body_map_ext w ht hr0 ex l).symm
    have ev : L.look h o = h2.val p := by
      rw [x2.val p (x1.wf.lt (by have := r1 p; simp only [one, if_true] at this; omega)), v1]
    rw [em, eb, ev, Tree.assignSlot_map]
    have := Tree.Tree.map_setBody h2.val t1 l { Tree.assignSlot (t.body l) s k p with perm := np }
    change Tree.Tree.map h2.val { Tree.unlock { t1 with body := upd t1.body l { Tree.assignSlot (t.body l) s k p with perm := np } } l with count := t1.count + 1 } = _
    have e3 : Tree.Tree.map h2.val { Tree.unlock { t1 with body := upd t1.body l { Tree.assignSlot (t.body l) s k p with perm := np } } l with count := t1.count + 1 }
      = { Tree.unlock (Tree.Tree.map h2.val { t1 with body := upd t1.body l { Tree.assignSlot (t.body l) s k p with perm := np } }) l with count := t1.count + 1 } := rfl
    rw [e3, this]
    rfl
  · exact ht1.setBody hk1 hnb rfl rfl rfl
  · have h3 := href a
    have h4 := r2 a
    have h5 := r1 a
    have h6 := acc a
    simp only [Lawful.ownO, List.count_nil]
    simp only at h3
    omega
  · have h3 := href a
    simp only at h3 ⊢
    omega

theorem insertLoop_sim {S : SlotOps V O} (L : Lawful S) {o : O} {ext : Nat → Nat} {h : Heap V} (w : WF h) (n : Nat) : ∀ {t : Tree Nat} {k : Key} {lr : Nat}
    {tv : Tree V} {rv : Option V}, Tidy t → (∀ a, h.rc a = refs t a + L.own o a + ext a) →
    Tree.insertLoop (L.look h o) n (t.map h.val) k lr = .ok (tv, rv) →
    ∃ x, insertLoop S o n h t k lr = .ok x ∧ Post L ext h t tv rv x := by
  induction n with
  | zero => intro t k lr tv rv _ _ hv; cases hv
  | succ n ih =>
    intro t k lr tv rv ht acc hv
    have hr0 : ∀ a, refs t a ≤ h.rc a := fun a => by rw [acc]; omega
    have hown : ∀ a, L.own o a ≤ h.rc a := fun a => by rw [acc]; omega
    -- a retry on a tree with the same pointers
    have again : ∀ {t' : Tree Nat} {k' lr'}, Tidy t' → (∀ a, refs t' a = refs t a) →
        Tree.insertLoop (L.look h o) n (t'.map h.val) k' lr' = .ok (tv, rv) →
        ∃ x, insertLoop S o n h t' k' lr' = .ok x ∧ Post L ext h t tv rv x := by
      intro t' k' lr' h1 h2 h3
      obtain ⟨x, e, P⟩ := ih h1 (fun a => by rw [h2, acc]) h3
      exact ⟨x, e, P.heap, P.map, P.ret, P.tidy, P.acc, fun a ha => P.held a (by rw [h2]; exact ha)⟩
    simp only [Tree.insertLoop] at hv
    simp only [insertLoop]
    rw [Tree.walkFuel_map, Tree.maybeParent_map] at hv
    cases h1 : Tree.maybeParent t (Tree.walkFuel t) lr with
    | error e => rw [h1] at hv; cases hv
    | ok r =>
      rw [h1] at hv
      simp only [bind, Except.bind] at hv ⊢
      rw [Tree.reachLeaf_map] at hv
      cases h2 : Tree.reachLeaf t r k.ikey (Tree.walkFuel t) r with
      | error e => rw [h2] at hv; cases hv
      | ok l0 =>
        rw [h2] at hv
        simp only at hv ⊢
        rw [Tree.advance_map] at hv
        cases h3 : Tree.advance t k.ikey Tree.maxBlinkHops l0 with
        | error e => rw [h3] at hv; cases hv
        | ok y =>
          rw [h3] at hv
          obtain ⟨l, exceeded⟩ := y
          simp only at hv ⊢
          cases exceeded with
          | true =>
            simp only [if_true] at hv ⊢
            exact again ht (fun _ => rfl) hv
          | false =>
            simp only [Bool.false_eq_true, if_false] at hv ⊢
            rw [Tree.leafAt_map] at hv
            cases h4 : Tree.leafAt t l with
            | error e => rw [h4] at hv; cases hv
            | ok b =>
              rw [h4] at hv
              simp only [Except.map] at hv ⊢
              have hkb : t.kind l = some .leaf ∧ b = t.body l := by
                unfold Tree.leafAt at h4
                cases hk : t.kind l with
                | none => rw [hk] at h4; cases h4
                | some kk =>
                  rw [hk] at h4
                  cases kk with
                  | leaf => cases h4; exact ⟨rfl, rfl⟩
                  | inode => cases h4
              obtain ⟨hkl, hb⟩ := hkb
              rw [Tree.lock_map] at hv
              cases h5 : Tree.lock t l with
              | error e => rw [h5] at hv; cases hv
              | ok t1 =>
                rw [h5] at hv
                simp only [Except.map] at hv ⊢
                have s1 := Tree.lock_shell h5
                have ht1 := s1.tidy ht
                have hr1 : ∀ a, refs t1 a = refs t a := s1.refs ht
                have hk1 : t1.kind l = some .leaf := (s1.kind l).2 hkl
                have hb1 : t1.body l = b := by rw [s1.body, hb]
                have su : Tree.Shell t (Tree.unlock t1 l) := s1.trans (Tree.Shell.of_eq rfl rfl rfl)
                have hlt := ht1.lt hk1
                subst hb
                have enext : (t1.map h.val).next l = t1.next l := rfl
                rw [enext] at hv
                cases hnx : t1.next l
                case' some q =>
                  rw [hnx] at hv
                  simp only at hv ⊢
                  rw [Tree.ikeyBound_map] at hv
                  cases hib : Tree.ikeyBound t1 q
                  case' error e => rw [hib] at hv; cases hv
                  case' ok nb =>
                    rw [hib] at hv
                    simp only at hv ⊢
                    by_cases cm : nb ≤ k.ikey
                    case' pos =>
                      simp only [cm, decide_true, if_true] at hv ⊢
                      rw [Tree.unlock_map] at hv
                      exact again (su.tidy ht) (su.refs ht) hv
                    case' neg =>
                      simp only [cm, decide_false, Bool.false_eq_true, if_false] at hv ⊢
                case' none =>
                  rw [hnx] at hv
                  simp only [Bool.false_eq_true, if_false] at hv ⊢
                all_goals
                    have eperm : ((t.body l).map h.val).perm = (t.body l).perm := rfl
                    simp only [eperm] at hv
                    rw [Tree.searchForInsert_map] at hv
                    cases hf : Tree.searchForInsert (t.body l) k 0 (size 5 (t.body l).perm) with
                    | found s =>
                      rw [hf] at hv
                      simp only at hv ⊢
                      have ecell : ((t.body l).map h.val).cell s = ((t.body l).cell s).map h.val := rfl
                      rw [ecell] at hv
                      cases hc : (t.body l).cell s with
                      | null =>
                        rw [hc] at hv
                        simp only [Tree.Cell.map] at hv ⊢
                        rw [Tree.unlock_map] at hv
                        exact again (su.tidy ht) (su.refs ht) hv
                      | layer q => rw [hc] at hv; cases hv
                      | val old =>
                        rw [hc] at hv
                        simp only [Tree.Cell.map] at hv ⊢
                        have hpos := Tree.refs_pos ht hc
                        obtain ⟨g1, oo, e1, x1, lk1, r1⟩ := L.fromRaw w (p := old) (by rw [acc]; omega)
                        have own1 : ∀ a, L.own o a ≤ g1.rc a := fun a => by rw [r1, acc]; omega
                        obtain ⟨g2, p, e2, x2, v2, r2⟩ := L.consume x1.wf own1
                        rw [e1]
                        simp only
                        rw [e2]
                        simp only
                        refine ⟨_, rfl, ?_⟩
                        have ex := x1.trans x2
                        have hnb : TidyB ({ (t.body l) with cell := upd (t.body l).cell s (.val p) }) :=
                          tidyB_replace (ht.body l) hc rfl rfl rfl
                        have href : ∀ a, refs (Tree.unlock { t1 with body := upd t1.body l { (t.body l) with cell := upd (t.body l).cell s (.val p) } } l) a + one a old = refs t a + one a p := by
                          intro a
                          have e := Tree.refs_setBody (t := t1) (t' := Tree.unlock { t1 with body := upd t1.body l { (t.body l) with cell := upd (t.body l).cell s (.val p) } } l)
                            (l := l) (nb := { (t.body l) with cell := upd (t.body l).cell s (.val p) }) hlt rfl rfl a
                          have e2 := Tree.leafRefs_upd (b := t.body l) (nb := { (t.body l) with cell := upd (t.body l).cell s (.val p) })
                            ((ht.body l).slot_lt (s := s) (by rw [hc]; simp)) rfl a
                          rw [hc, ind_one, ind_one] at e2
                          rw [hb1, hr1] at e
                          omega
                        obtain ⟨rfl, rfl⟩ := Prod.mk.inj (Except.ok.inj hv)
                        have own2 : ∀ a, L.own oo a ≤ g1.rc a := fun a => by rw [r1]; omega
                        refine ⟨ex, ?_, ?_, ht1.setBody hk1 hnb rfl rfl rfl, fun a => ?_, fun a ha => ?_⟩
                        · have em : t1.map h.val = t1.map g2.val := (map_ext w ht1 (fun a => by rw [hr1]; exact hr0 a) ex).symm
                          have eb : (t.body l).map h.val = (t.body l).map g2.val := (body_map_ext w ht hr0 ex l).symm
                          have ev : L.look h o = g2.val p := by rw [v2, L.look_ext w x1 hown]
                          rw [em, eb, ev]
                          have := Tree.Tree.map_setBody g2.val t1 l { (t.body l) with cell := upd (t.body l).cell s (.val p) }
                          have e3 : Tree.Tree.map g2.val (Tree.unlock { t1 with body := upd t1.body l { (t.body l) with cell := upd (t.body l).cell s (.val p) } } l)
                            = Tree.unlock (Tree.Tree.map g2.val { t1 with body := upd t1.body l { (t.body l) with cell := upd (t.body l).cell s (.val p) } }) l := rfl
                          simp only
                          rw [e3, this]
                          simp only [Tree.Leaf.map, Tree.map_upd (Tree.Cell.map g2.val)]
                          rfl
                        · simp only [Option.map]
                          rw [L.look_ext x1.wf x2 own2, lk1]
                        · simp only [Lawful.ownO, count_one]
                          have h1 := href a; have := r2 a; have := r1 a; have := acc a
                          simp only at h1
                          omega
                        · simp only [List.mem_singleton]
                          have := href a
                          by_cases e : a = old
                          · exact Or.inr e
                          · simp only [one, e, if_false] at this
                            left; omega
                    | notFound pos =>
                      rw [hf] at hv
                      simp only at hv ⊢
                      have hposle := searchForInsert_pos _ _ hf
                      have hsplit : ∀ t2, Tree.handleLeafSplit t1 l k.ikey = .ok t2 → Tree.insertLoop (L.look h o) n (t2.map h.val) k r = .ok (tv, rv) →
                          ∃ x, insertLoop S o n h t2 k r = .ok x ∧ Post L ext h t tv rv x := by
                        intro t2 hsp hv
                        obtain ⟨a1, a2⟩ := Tree.handleLeafSplit_own ht1 hk1 hsp
                        exact again a1 (fun a => (a2 a).trans (hr1 a)) hv
                      have hPerm := (ht.body l).perm
                      have hfree : ∀ j, size 5 (t.body l).perm ≤ j → j < 24 → (t.body l).cell (get 5 (t.body l).perm j) = .null := by
                        intro j hj1 hj2
                        refine (ht.body l).free _ fun i hi e => ?_
                        have := hPerm.inj i j (by unfold Leaf.n at hi; omega) hj2 e
                        unfold Leaf.n at hi; omega
                      by_cases cw : Tree.leafWidth ≤ size 5 (t.body l).perm
                      · rw [if_pos cw] at hv
                        rw [if_pos cw]
                        rw [Tree.handleLeafSplit_map] at hv
                        cases hsp : Tree.handleLeafSplit t1 l k.ikey with
                        | error e => rw [hsp] at hv; cases hv
                        | ok t2 =>
                          rw [hsp] at hv
                          simp only [Except.map] at hv ⊢
                          exact hsplit t2 hsp hv
                      · rw [if_neg cw] at hv
                        rw [if_neg cw]
                        have hsz : size 5 (t.body l).perm < 24 := by unfold Tree.leafWidth at cw; omega
                        have ecr : Tree.canReuseSlot0 (t1.map h.val) l k.ikey = Tree.canReuseSlot0 t1 l k.ikey := rfl
                        rw [ecr] at hv
                        by_cases c0 : back 5 24 (t.body l).perm = 0 ∧ Tree.canReuseSlot0 t1 l k.ikey = false
                        · rw [if_pos c0] at hv
                          rw [if_pos c0]
                          cases ha : Tree.findAlt (t.body l).perm 1 (Tree.leafWidth - size 5 (t.body l).perm - 1) with
                          | none =>
                            rw [ha] at hv
                            simp only at hv ⊢
                            rw [Tree.handleLeafSplit_map] at hv
                            cases hsp : Tree.handleLeafSplit t1 l k.ikey with
                            | error e => rw [hsp] at hv; cases hv
                            | ok t2 =>
                              rw [hsp] at hv
                              simp only [Except.map] at hv ⊢
                              exact hsplit t2 hsp hv
                          | some y =>
                            obtain ⟨alt, off⟩ := y
                            rw [ha] at hv
                            simp only at hv ⊢
                            obtain ⟨q1, q2, q3⟩ := findAlt_spec ha
                            have hoff : off < 24 - size 5 (t.body l).perm := by unfold Tree.leafWidth at q2; omega
                            have hps := permOK_swap hPerm (i := 23) (j := 23 - off) (by omega) (by omega)
                            have hss : size 5 (swapFreeSlots 5 (t.body l).perm 23 (23 - off)) = size 5 (t.body l).perm := by
                              rw [Verif.Perm.swapFreeSlots_eq_exchange, Verif.Perm.size_exchange params24]
                            have hgs : ∀ j, j < 24 → get 5 (swapFreeSlots 5 (t.body l).perm 23 (23 - off)) j =
                                if j = 23 then get 5 (t.body l).perm (23 - off) else if j = 23 - off then get 5 (t.body l).perm 23 else get 5 (t.body l).perm j := by
                              intro j hj
                              rw [Verif.Perm.swapFreeSlots_eq_exchange, Verif.Perm.get_exchange params24 _ (by omega) (by omega) hj]
                            obtain ⟨u1, u2, u3⟩ := insert_used (p := swapFreeSlots 5 (t.body l).perm 23 (23 - off)) (pos := pos) (by omega) (by omega)
                            obtain ⟨g1, p, g2, e1, e2, P⟩ := insert_new_sim L (k := k) (s := alt) (l := l) (np := (insertFromBack 5 24 (swapFreeSlots 5 (t.body l).perm 23 (23 - off)) pos).1)
                              w ht hkl acc s1 (by rw [q3]; exact hPerm.lt _ (by omega)) (by rw [q3]; exact hfree _ (by omega) (by omega))
                              (Tree.permOK_insert hps (by omega) (by omega)) (j0 := pos) u2 (by rw [u1, hgs 23 (by omega), q3]; simp)
                              (by
                                intro j hj
                                unfold Leaf.n at hj
                                obtain ⟨j', a1, a2⟩ := u3 j (by omega)
                                refine ⟨j', a1, ?_⟩
                                rw [a2, hgs j (by omega), if_neg (by omega), if_neg (by omega)])
                            rw [e1]
                            simp only
                            rw [e2]
                            simp only
                            obtain ⟨rfl, rfl⟩ := Prod.mk.inj (Except.ok.inj hv)
                            exact ⟨_, rfl, P⟩
                        · rw [if_neg c0] at hv
                          rw [if_neg c0]
                          obtain ⟨u1, u2, u3⟩ := insert_used (p := (t.body l).perm) (pos := pos) hsz (by omega)
                          obtain ⟨g1, p, g2, e1, e2, P⟩ := insert_new_sim L (k := k) (s := back 5 24 (t.body l).perm) (l := l) (np := (insertFromBack 5 24 (t.body l).perm pos).1)
                            w ht hkl acc s1 (hPerm.lt 23 (by omega)) (hfree 23 (by omega) (by omega))
                            (Tree.permOK_insert hPerm hsz (by omega)) (j0 := pos) u2 u1 u3
                          rw [e1]
                          simp only
                          rw [e2]
                          simp only
                          obtain ⟨rfl, rfl⟩ := Prod.mk.inj (Except.ok.inj hv)
                          exact ⟨_, rfl, P⟩
                    | layer s =>
                      rw [hf] at hv
                      simp only at hv ⊢
                      have ecell : ((t.body l).map h.val).cell s = ((t.body l).cell s).map h.val := rfl
                      rw [ecell] at hv
                      cases hc : (t.body l).cell s with
                      | null => rw [hc] at hv; cases hv
                      | val q => rw [hc] at hv; cases hv
                      | layer q =>
                        rw [hc] at hv
                        simp only [Tree.Cell.map] at hv ⊢
                        rw [Tree.unlock_map] at hv
                        exact again (su.tidy ht) (su.refs ht) hv
                    | conflict s =>
                      rw [hf] at hv
                      simp only at hv ⊢
                      obtain ⟨g1, o', e1, x1, lk1, r1⟩ := L.clone w hown
                      rw [e1]
                      simp only
                      have em1 : t1.map h.val = t1.map g1.val := (map_ext w ht1 (fun a => by rw [hr1]; exact hr0 a) x1).symm
                      have eb1 : (t.body l).map h.val = (t.body l).map g1.val := (body_map_ext w ht hr0 x1 l).symm
                      rw [em1, ← lk1] at hv
                      cases hcl : Tree.createLayer (t1.map g1.val) ((t.body l).map h.val) s k (L.look g1 o') with
                      | error e => rw [hcl] at hv; cases hv
                      | ok y =>
                        rw [hcl] at hv
                        obtain ⟨tv2, pv⟩ := y
                        simp only at hv
                        rw [eb1] at hcl
                        obtain ⟨g2, t2, q, e2, x2, m2, G, hq, ep, np, R⟩ := createLayer_sim L (ext := fun a => L.own o a + ext a) x1.wf ht1 (l := l) hb1.symm
                          (fun a => by have := r1 a; have := acc a; rw [hr1]; omega) hcl
                        rw [e2]
                        simp only
                        rw [hq]
                        simp only
                        have own2 : ∀ a, L.own o a ≤ g2.rc a := fun a => by have := (R a).1; omega
                        obtain ⟨g3, e3, x3, r3⟩ := L.dropOut x2.wf own2
                        rw [e3]
                        simp only
                        refine ⟨_, rfl, ?_⟩
                        have ex := (x1.trans x2).trans x3
                        have hk2 : t2.kind l = some .leaf := by rw [G.kind l hlt]; exact hk1
                        have hb2 : t2.body l = t.body l := by rw [G.body l hlt, hb1]
                        have hnb : TidyB ({ (t.body l) with ksuf := upd (t.body l).ksuf s none, klx := upd (t.body l).klx s Tree.layerKeylenx, cell := upd (t.body l).cell s (.layer pv) }) :=
                          tidyB_layer (ht.body l) (s := s) (Or.inl (by rw [hq]; simp)) rfl rfl rfl
                        have href : ∀ a, refs ({ Tree.unlock { t2 with body := upd t2.body l { (t.body l) with ksuf := upd (t.body l).ksuf s none, klx := upd (t.body l).klx s Tree.layerKeylenx, cell := upd (t.body l).cell s (.layer pv) } } l with count := t2.count + 1 }) a + one a q = refs t a + one a ep + one a np := by
                          intro a
                          have e := Tree.refs_setBody (t := t2) (t' := { Tree.unlock { t2 with body := upd t2.body l { (t.body l) with ksuf := upd (t.body l).ksuf s none, klx := upd (t.body l).klx s Tree.layerKeylenx, cell := upd (t.body l).cell s (.layer pv) } } l with count := t2.count + 1 })
                            (l := l) (nb := { (t.body l) with ksuf := upd (t.body l).ksuf s none, klx := upd (t.body l).klx s Tree.layerKeylenx, cell := upd (t.body l).cell s (.layer pv) }) (G.tidy.lt hk2) rfl rfl a
                          have e2 := Tree.leafRefs_upd (b := t.body l) (nb := { (t.body l) with ksuf := upd (t.body l).ksuf s none, klx := upd (t.body l).klx s Tree.layerKeylenx, cell := upd (t.body l).cell s (.layer pv) })
                            ((ht.body l).slot_lt (s := s) (by rw [hq]; simp)) rfl a
                          rw [hq, ind_one, Tree.ind_layer] at e2
                          rw [hb2] at e
                          have := (R a).2
                          rw [hr1] at this
                          omega
                        obtain ⟨rfl, rfl⟩ := Prod.mk.inj (Except.ok.inj hv)
                        refine ⟨ex, ?_, rfl, G.tidy.setBody hk2 hnb rfl rfl rfl, fun a => ?_, fun a ha => ?_⟩
                        · have em : t2.map g2.val = t2.map g3.val := (map_ext x2.wf G.tidy (fun a => by have := (R a).1; have := (R a).2; omega) x3).symm
                          have eb : (t.body l).map h.val = (t.body l).map g3.val := (body_map_ext w ht hr0 ex l).symm
                          rw [← m2, em, eb]
                          have := Tree.Tree.map_setBody g3.val t2 l { (t.body l) with ksuf := upd (t.body l).ksuf s none, klx := upd (t.body l).klx s Tree.layerKeylenx, cell := upd (t.body l).cell s (.layer pv) }
                          have e3 : Tree.Tree.map g3.val ({ Tree.unlock { t2 with body := upd t2.body l { (t.body l) with ksuf := upd (t.body l).ksuf s none, klx := upd (t.body l).klx s Tree.layerKeylenx, cell := upd (t.body l).cell s (.layer pv) } } l with count := t2.count + 1 })
                            = { Tree.unlock (Tree.Tree.map g3.val { t2 with body := upd t2.body l { (t.body l) with ksuf := upd (t.body l).ksuf s none, klx := upd (t.body l).klx s Tree.layerKeylenx, cell := upd (t.body l).cell s (.layer pv) } }) l with count := t2.count + 1 } := rfl
                          simp only
                          rw [e3, this]
                          simp only [Tree.Leaf.map, Tree.map_upd (Tree.Cell.map g3.val)]
                          rfl
                        · simp only [Lawful.ownO, count_one]
                          have h1 := href a; have h2 := (R a).1; have h3 := r3 a
                          rw [hr1] at h2
                          simp only at h1
                          omega
                        · simp only [List.mem_singleton]
                          have := href a
                          by_cases e : a = q
                          · exact Or.inr e
                          · simp only [one, e, if_false] at this
                            left; omega

end Verif.Store
