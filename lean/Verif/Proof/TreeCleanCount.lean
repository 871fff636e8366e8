import Verif.Proof.TreeClean
set_option linter.unusedSimpArgs false
set_option linter.unusedVariables false
/-!
# How many suffixes a tree stores
-/
namespace Verif.Tree
open Verif.Spec (Bytes)
open Verif.Internode (Arr upd upd_same upd_ne)
open Verif.Perm (size get back backAtOffset insertFromBack swapFreeSlots setSize makeSorted24 params24)
variable {V : Type}

/-- 1 for a stored suffix. -/
def one (o : Option Bytes) : Nat := if o.isSome then 1 else 0
theorem one_le (o : Option Bytes) : one o ≤ 1 := by unfold one; split <;> omega
theorem one_none : one none = 0 := rfl
theorem one_some (x : Bytes) : one (some x) = 1 := rfl
theorem one_pos {o : Option Bytes} (h : o ≠ none) : one o = 1 := by
  cases o with
  | none => exact absurd rfl h
  | some x => rfl

theorem sufs_eq (b : Leaf V) : sufs b = ∑ s ∈ Finset.range 24, one (b.ksuf s) := rfl

theorem sufs_change {b nb : Leaf V} {s : Nat} (hs : s < 24) (h : ∀ x, x ≠ s → nb.ksuf x = b.ksuf x) :
    sufs nb + one (b.ksuf s) = sufs b + one (nb.ksuf s) := by
  rw [sufs_eq, sufs_eq]
  exact sum_change (fun x => one (nb.ksuf x)) (fun x => one (b.ksuf x)) hs (fun j hj => by simp only [h j hj])

theorem sufs_congr {b nb : Leaf V} (h : nb.ksuf = b.ksuf) : sufs nb = sufs b := by
  rw [sufs_eq, sufs_eq, h]

theorem sufs_none {b : Leaf V} (h : ∀ s, b.ksuf s = none) : sufs b = 0 := by
  rw [sufs_eq]
  exact Finset.sum_eq_zero fun s _ => by rw [h]; rfl

theorem moveLoop_sufs {p : BitVec 128} (hp : PermOK p) {pos : Nat} {b : Leaf V} (n : Nat) (hn : pos + n ≤ 24) :
    sufs (moveLoop p pos (b, emptyLeaf) n).1 + sufs (moveLoop p pos (b, emptyLeaf) n).2 = sufs b := by
  induction n with
  | zero =>
    show sufs b + sufs (emptyLeaf : Leaf V) = sufs b
    rw [sufs_none (b := (emptyLeaf : Leaf V)) (fun _ => rfl)]; omega
  | succ n ih =>
    have ih := ih (by omega)
    have h0 := moveLoop_rest (p := p) (pos := pos) (b := b) n n (Nat.le_refl _)
    simp only [moveLoop]
    generalize moveLoop p pos (b, emptyLeaf) n = x at ih h0
    have hos := hp.lt (pos + n) (by omega)
    have hcase : ((moveOne p pos n x).1.ksuf = x.1.ksuf ∧ (moveOne p pos n x).2.ksuf = x.2.ksuf) ∨
        ((moveOne p pos n x).1.ksuf = upd x.1.ksuf (get 5 p (pos + n)) none ∧
         ∃ z, x.1.ksuf (get 5 p (pos + n)) = some z ∧ (moveOne p pos n x).2.ksuf = upd x.2.ksuf n (some z)) := by
      unfold moveOne
      simp only
      by_cases hk : x.1.klx (get 5 p (pos + n)) = ksufKeylenx
      · rw [if_pos hk]
        cases hc : x.1.ksuf (get 5 p (pos + n)) with
        | none =>
          left
          refine ⟨?_, rfl⟩
          funext z
          simp only [upd]
          split
          · next e => rw [e, hc]
          · rfl
        | some z => right; exact ⟨rfl, z, rfl, rfl⟩
      · rw [if_neg hk]; left; exact ⟨rfl, rfl⟩
    rcases hcase with ⟨e1, e2⟩ | ⟨e1, z, e2, e3⟩
    · rw [sufs_congr e1, sufs_congr e2]; exact ih
    · have c1 := sufs_change (b := x.1) (nb := (moveOne p pos n x).1) hos (fun y hy => by rw [e1, upd_ne _ _ _ hy])
      have c2 := sufs_change (b := x.2) (nb := (moveOne p pos n x).2) (show n < 24 by omega) (fun y hy => by rw [e3, upd_ne _ _ _ hy])
      rw [e1, upd_same, e2, one_none, one_some] at c1
      rw [e3, upd_same, h0, one_none, one_some] at c2
      omega

theorem sufs_split {b : Leaf V} (h : PermOK b.perm) {pos : Nat} (hp : pos < size 5 b.perm) :
    sufs (splitLeaf b pos).1 + sufs (splitLeaf b pos).2.1 = sufs b := by
  have := h.size_le
  exact moveLoop_sufs h (size 5 b.perm - pos) (by omega)

attribute [local irreducible] sufs

/-! ## Trees -/

theorem count_setBody {t t' : Tree V} {l : Nat} {nb : Leaf V} (hl : l < t.fresh) (hf : t'.fresh = t.fresh)
    (hb : t'.body = upd t.body l nb) : suffixCount t' + sufs (t.body l) = suffixCount t + sufs nb := by
  have := sum_change (fun p => sufs (t'.body p)) (fun p => sufs (t.body p)) (i := l) (n := t.fresh) hl (by
    intro j hj; simp only [hb, upd_ne _ _ _ hj])
  unfold suffixCount
  rw [hf, this]
  simp only [hb, upd_same]

theorem count_setBody_le {t t' : Tree V} {l : Nat} {nb : Leaf V} (hl : l < t.fresh) (hf : t'.fresh = t.fresh)
    (hb : t'.body = upd t.body l nb) {a b : Nat} (h : sufs nb + a ≤ sufs (t.body l) + b) : suffixCount t' + a ≤ suffixCount t + b := by
  have := count_setBody hl hf hb
  omega

theorem count_alloc {t : Tree V} (r lk : Bool) (b : Leaf V) : suffixCount (allocLeaf t r lk b).1 = suffixCount t + sufs b := by
  unfold suffixCount
  show ∑ p ∈ Finset.range (t.fresh + 1), sufs (upd t.body t.fresh b p) = _
  have h : ∑ p ∈ Finset.range t.fresh, sufs (upd t.body t.fresh b p) = ∑ p ∈ Finset.range t.fresh, sufs (t.body p) := by
    refine Finset.sum_congr rfl fun p hp => ?_
    have := Finset.mem_range.1 hp
    rw [upd_ne _ _ _ (by omega)]
  rw [Finset.sum_range_succ, upd_same, h]

theorem Hull.count {t t' : Tree V} (H : Hull t t') (h : CT t) : suffixCount t' = suffixCount t := by
  unfold suffixCount
  rw [H.body]
  refine (Finset.sum_subset (Finset.range_mono H.fresh) fun p _ hp => ?_).symm
  have hp' : t.fresh ≤ p := by simpa using hp
  exact sufs_none (h.rest p hp')

theorem lock_count {t t' : Tree V} {p : Nat} (h : lock t p = .ok t') : t'.count = t.count := by
  unfold lock at h
  by_cases c : t.locked p = true
  · rw [if_pos c] at h; cases h
  · rw [if_neg c] at h; cases h; rfl

theorem setParent_count {t t' : Tree V} {p q : Nat} {b : Bool} (h : setParent t p q b = .ok t') : t'.count = t.count := by
  unfold setParent at h
  by_cases c : t.kind p = some (if b then Kind.leaf else Kind.inode)
  · rw [if_pos c] at h; cases h; rfl
  · rw [if_neg c] at h; cases h

theorem setParents_count {a : Arr (Option Nat)} {sib : Nat} {b : Bool} : ∀ {n} {t t' : Tree V},
    setParents t a sib b n = .ok t' → t'.count = t.count
  | 0, t, t', h => by cases h; rfl
  | n + 1, t, t', h => by
    simp only [setParents] at h
    cases h1 : setParents t a sib b n with
    | error e => rw [h1] at h; cases h
    | ok t1 =>
      rw [h1] at h
      simp only [bind, Except.bind] at h
      have s1 := setParents_count h1
      cases hc : a.child n with
      | none => rw [hc] at h; cases h; exact s1
      | some c => rw [hc] at h; exact (setParent_count h).trans s1

theorem promote_count {t t' : Tree V} {l r s : Nat} {b : Bool} (h : promoteLayerRoot t l r s b = .ok t') : t'.count = t.count := by
  simp only [promoteLayerRoot, bind, Except.bind] at h
  have s0 : (allocInode t true false (if b = true then 0 else t.height l + 1) (rootArr l r s)).1.count = t.count := rfl
  generalize allocInode t true false (if b = true then 0 else t.height l + 1) (rootArr l r s) = x at h s0
  obtain ⟨t1, n⟩ := x
  simp only at h s0
  cases h1 : setParent t1 l n b with
  | error e => rw [h1] at h; cases h
  | ok t2 =>
    rw [h1] at h
    simp only at h
    cases h2 : setParent t2 r n b with
    | error e => rw [h2] at h; cases h
    | ok t3 =>
      rw [h2] at h
      cases h
      exact ((setParent_count h2).trans (setParent_count h1)).trans s0

theorem createMain_count {t t' : Tree V} {l r s : Nat} {b : Bool} (h : createMainRoot t l r s b = .ok t') : t'.count = t.count := by
  simp only [createMainRoot, bind, Except.bind] at h
  have s0 : (allocInode t true false (if b = true then 0 else t.height l + 1) (rootArr l r s)).1.count = t.count := rfl
  generalize allocInode t true false (if b = true then 0 else t.height l + 1) (rootArr l r s) = x at h s0
  obtain ⟨t1, n⟩ := x
  simp only at h s0
  by_cases c : t1.root ≠ l
  · rw [if_pos c] at h; cases h
  · rw [if_neg c] at h
    cases h1 : setParent { t1 with root := n } l n b with
    | error e => rw [h1] at h; cases h
    | ok t2 =>
      rw [h1] at h
      simp only at h
      cases h2 : setParent t2 r n b with
      | error e => rw [h2] at h; cases h
      | ok t3 =>
        rw [h2] at h
        cases h
        exact ((setParent_count h2).trans (setParent_count h1)).trans s0

theorem propagate_count : ∀ n {t t' : Tree V} {l r s : Nat} {m y b : Bool}, propagate n t l r s m y b = .ok t' → t'.count = t.count
  | 0, t, t', l, r, s, m, y, b, h => by cases h
  | n + 1, t, t', l, r, s, m, y, b, h => by
    have ih := fun (t t' : Tree V) l r s m y b => @propagate_count n t t' l r s m y b
    simp only [propagate, bind, Except.bind] at h
    cases h0 : getParent t l b with
    | error e => rw [h0] at h; cases h
    | ok x =>
      rw [h0] at h
      cases x with
      | none =>
        cases y with
        | true =>
          simp only [if_true] at h
          cases h1 : promoteLayerRoot t l r s b with
          | error e => rw [h1] at h; cases h
          | ok t1 => rw [h1] at h; cases h; show t1.count = t.count; exact promote_count h1
        | false =>
          cases m with
          | true =>
            simp only [if_true, Bool.false_eq_true, if_false] at h
            cases h1 : createMainRoot t l r s b with
            | error e => rw [h1] at h; cases h
            | ok t1 => rw [h1] at h; cases h; show t1.count = t.count; exact createMain_count h1
          | false => cases h
      | some p =>
        simp only at h
        by_cases c : t.kind p ≠ some .inode
        · rw [if_pos c] at h; cases h
        · rw [if_neg c] at h
          cases h1 : lock t p with
          | error e => rw [h1] at h; cases h
          | ok t1 =>
            rw [h1] at h
            have s1 := lock_count h1
            simp only at h
            cases h2 : findChild (t1.arr p) l 0 ((t1.arr p).nkeys + 1) with
            | none => rw [h2] at h; cases h
            | some idx =>
              rw [h2] at h
              simp only at h
              by_cases c2 : (t1.arr p).nkeys < inodeWidth
              · rw [if_pos c2] at h
                cases h3 : setParent { t1 with arr := upd t1.arr p (Verif.Internode.insertKeyAndChild (t1.arr p) idx s (some r)) } r p b with
                | error e => rw [h3] at h; cases h
                | ok t2 =>
                  rw [h3] at h; cases h
                  exact (setParent_count h3).trans s1
              · rw [if_neg c2] at h
                have s2 : (allocInode t1 false true (t1.height p) emptyArr).1.count = t1.count := rfl
                generalize allocInode t1 false true (t1.height p) emptyArr = x at h s2
                obtain ⟨t2, sib⟩ := x
                simp only at h s2
                generalize Verif.Internode.splitInto inodeWidth (t1.arr p) emptyArr idx s (some r) = w at h
                obtain ⟨la, ra, popup, wl⟩ := w
                simp only at h
                cases h3 : setParents { t2 with arr := upd (upd t2.arr p la) sib ra } ra sib (t2.height p == 0) (ra.nkeys + 1) with
                | error e => rw [h3] at h; cases h
                | ok t3 =>
                  rw [h3] at h
                  simp only at h
                  cases h4 : setParent t3 r (if wl = true then p else sib) b with
                  | error e => rw [h4] at h; cases h
                  | ok t4 =>
                    rw [h4] at h
                    simp only at h
                    have e1 := setParents_count h3
                    simp only at e1
                    have e2 := setParent_count h4
                    have e3 := ih _ _ _ _ _ _ _ _ h
                    simp only [unlockSplit] at e3
                    omega

theorem linkSibling_count {t t' : Tree V} {l r : Nat} (h : linkSibling t l r = .ok t') : t'.count = t.count := by
  simp only [linkSibling] at h
  cases h0 : t.next l with
  | none => rw [h0] at h; cases h; rfl
  | some q =>
    rw [h0] at h
    simp only at h
    cases h1 : t.kind q with
    | none => rw [h1] at h; cases h
    | some k =>
      rw [h1] at h
      cases k with
      | leaf => cases h; rfl
      | inode => cases h

theorem split_count {t t' : Tree V} {l ik : Nat} (ht : CT t) (hl : t.kind l = some .leaf)
    (h : handleLeafSplit t l ik = .ok t') : suffixCount t' = suffixCount t ∧ t'.count = t.count := by
  have hlt := ht.lt hl
  unfold handleLeafSplit at h
  simp only at h
  cases hc : calcSplitPoint (t.body l) ik with
  | none => rw [hc] at h; cases h
  | some pos =>
    rw [hc] at h
    simp only at h
    obtain ⟨q1, q2, q3⟩ := cb_split (ht.body l) (calcSplitPoint_lt hc)
    have q4 := sufs_split (ht.body l).perm (calcSplitPoint_lt hc)
    generalize splitLeaf (t.body l) pos = x at h q1 q2 q3 q4
    obtain ⟨lb, rb, s⟩ := x
    simp only at h q1 q2 q3 q4
    have ha := ht.alloc false true q2
    have hca := count_alloc (t := t) false true rb
    have hcc : (allocLeaf t false true rb).1.count = t.count := rfl
    have hb1 : (allocLeaf t false true rb).1.body = upd t.body t.fresh rb := rfl
    have hf1 : (allocLeaf t false true rb).1.fresh = t.fresh + 1 := rfl
    generalize allocLeaf t false true rb = y at h ha hb1 hf1 hca hcc
    obtain ⟨t1, r⟩ := y
    simp only at h ha hb1 hf1 hca hcc
    have h2 : CT ({ t1 with body := upd t1.body l lb } : Tree V) := ha.setBody (by omega) q1 rfl rfl rfl
    have hs := count_setBody (t := t1) (t' := { t1 with body := upd t1.body l lb }) (l := l) (nb := lb) (by omega) rfl rfl
    have hbl : t1.body l = t.body l := by rw [hb1, upd_ne _ _ _ (by omega)]
    rw [hbl] at hs
    simp only [bind, Except.bind] at h
    cases hk : linkSibling { t1 with body := upd t1.body l lb } l r with
    | error e => rw [hk] at h; cases h
    | ok t3 =>
      rw [hk] at h
      simp only at h
      have H := (linkSibling_hull hk).trans (propagate_hull _ h)
      have hc2 := H.count h2
      have hcc2 := (propagate_count _ h).trans (linkSibling_count hk)
      simp only at hcc2
      exact ⟨by omega, by omega⟩

theorem hang_count {t0 t : Tree V} {tail : Nat} (h : TailOK t0 t tail) {nb : Leaf V} (hn : nb.ksuf = (t.body tail).ksuf) :
    suffixCount { t with body := upd t.body tail nb } = suffixCount t := by
  have := count_setBody (t := t) (t' := { t with body := upd t.body tail nb }) h.lt rfl rfl
  rw [sufs_congr hn] at this
  omega

theorem twig_count {t0 : Tree V} : ∀ (f : Nat) {t : Tree V} {head : Option Nat} {tail : Nat} {ek nk : Key} {c : Ordering}
    {x : Tree V × Option Nat × Nat × Key × Key × Ordering}, Grown t0 t → (head ≠ none → TailOK t0 t tail) →
    twigLoop f t head tail ek nk c = .ok x → suffixCount x.1 = suffixCount t ∧ x.1.count = t.count
  | 0, t, head, tail, ek, nk, c, x, _, _, h => by cases h
  | f + 1, t, head, tail, ek, nk, c, x, g, ht, h => by
    rw [twigLoop] at h
    by_cases cc : c = .eq ∧ ek.hasSuffix ∧ nk.hasSuffix
    · rw [if_pos cc] at h
      simp only at h
      have ga := g.alloc true false (cb_twig (V := V) ek.ikey)
      have hca := count_alloc (t := t) true false ({ emptyLeaf with ikey := upd (fun _ => 0) 0 ek.ikey, perm := makeSorted24 1 } : Leaf V)
      rw [sufs_none (b := ({ emptyLeaf with ikey := upd (fun _ => 0) 0 ek.ikey, perm := makeSorted24 1 } : Leaf V)) (fun _ => rfl)] at hca
      have hcc : (allocLeaf t true false ({ emptyLeaf with ikey := upd (fun _ => 0) 0 ek.ikey, perm := makeSorted24 1 } : Leaf V)).1.count = t.count := rfl
      have hb1 : (allocLeaf t true false ({ emptyLeaf with ikey := upd (fun _ => 0) 0 ek.ikey, perm := makeSorted24 1 } : Leaf V)).1.body =
        upd t.body t.fresh { emptyLeaf with ikey := upd (fun _ => 0) 0 ek.ikey, perm := makeSorted24 1 } := rfl
      have hf1 : (allocLeaf t true false ({ emptyLeaf with ikey := upd (fun _ => 0) 0 ek.ikey, perm := makeSorted24 1 } : Leaf V)).1.fresh = t.fresh + 1 := rfl
      have hp1 : (allocLeaf t true false ({ emptyLeaf with ikey := upd (fun _ => 0) 0 ek.ikey, perm := makeSorted24 1 } : Leaf V)).2 = t.fresh := rfl
      generalize allocLeaf t true false ({ emptyLeaf with ikey := upd (fun _ => 0) 0 ek.ikey, perm := makeSorted24 1 } : Leaf V) = y at h ga hb1 hf1 hp1 hca hcc
      obtain ⟨t1, p⟩ := y
      simp only at h ga hb1 hf1 hp1 hca hcc
      subst hp1
      have hle := g.le
      have hnew : TailOK t0 t1 t.fresh := ⟨hle, by omega, fun s => by rw [hb1, upd_same]; rfl⟩
      cases head with
      | none =>
        simp only at h
        obtain ⟨r1, r2⟩ := twig_count f ga (fun _ => hnew) h
        exact ⟨by omega, by omega⟩
      | some hd =>
        simp only at h
        have hto := ht (by simp)
        have hne : tail ≠ t.fresh := by have := hto.lt; omega
        have hto1 : TailOK t0 t1 tail := ⟨hto.new, by have := hto.lt; omega, fun s => by rw [hb1, upd_ne _ _ _ hne]; exact hto.none s⟩
        obtain ⟨r1, r2⟩ := twig_count f (ga.hang hto1 t.fresh) (fun _ => ⟨hnew.new, hnew.lt, fun s => (by
          show (upd t1.body tail _ t.fresh).ksuf s = none
          rw [upd_ne _ _ _ (fun e => hne e.symm)]
          exact hnew.none s)⟩) h
        rw [hang_count hto1 (by rfl)] at r1
        refine ⟨by omega, r2.trans hcc⟩
    · rw [if_neg cc] at h
      cases h
      exact ⟨rfl, rfl⟩

theorem sufs_two (k k' : Key) (v v' : V) : sufs ({ assignFromKey (assignFromKey emptyLeaf 0 k v) 1 k' v' with perm := makeSorted24 2 } : Leaf V) ≤ 2 := by
  obtain ⟨a1, a2, a3⟩ := assignFromKey_ksuf (emptyLeaf : Leaf V) 0 k v rfl
  have h1 : (assignFromKey (emptyLeaf : Leaf V) 0 k v).ksuf 1 = none := by rw [a2 1 (by omega)]; rfl
  obtain ⟨b1, b2, b3⟩ := assignFromKey_ksuf (assignFromKey (emptyLeaf : Leaf V) 0 k v) 1 k' v' h1
  have c1 := sufs_change (b := (emptyLeaf : Leaf V)) (nb := assignFromKey emptyLeaf 0 k v) (s := 0) (by omega) a2
  have c2 := sufs_change (b := assignFromKey (emptyLeaf : Leaf V) 0 k v) (s := 1) (by omega) b2
  have e0 := sufs_none (b := (emptyLeaf : Leaf V)) (fun _ => rfl)
  have e : sufs ({ assignFromKey (assignFromKey emptyLeaf 0 k v) 1 k' v' with perm := makeSorted24 2 } : Leaf V) =
      sufs (assignFromKey (assignFromKey (emptyLeaf : Leaf V) 0 k v) 1 k' v') := sufs_congr rfl
  have l1 := one_le ((assignFromKey (emptyLeaf : Leaf V) 0 k v).ksuf 0)
  have l2 := one_le ((assignFromKey (assignFromKey (emptyLeaf : Leaf V) 0 k v) 1 k' v').ksuf 1)
  omega

theorem sufs_final (ek : Key) (ev : V) (nk : Key) (nv : V) (c : Ordering) : sufs (finalLeaf ek ev nk nv c) ≤ 2 := by
  have h : finalLeaf ek ev nk nv c = { assignFromKey (assignFromKey emptyLeaf 0 ek ev) 1 nk nv with perm := makeSorted24 2 } ∨
      finalLeaf ek ev nk nv c = { assignFromKey (assignFromKey emptyLeaf 0 nk nv) 1 ek ev with perm := makeSorted24 2 } := by
    unfold finalLeaf
    cases c with
    | lt => exact .inl rfl
    | gt => exact .inr rfl
    | eq =>
      cases e : decide (ek.currentLen ≤ nk.currentLen)
      · right; simp only [e, Bool.false_eq_true, if_false]
      · left; simp only [e, if_true]
  rcases h with h | h <;> rw [h] <;> exact sufs_two _ _ _ _

theorem layer_count {t t' : Tree V} {b : Leaf V} {s p : Nat} {k : Key} {v : V} (ht : CT t)
    (h : createLayer t b s k v = .ok (t', p)) : suffixCount t' ≤ suffixCount t + 2 ∧ t'.count = t.count := by
  unfold createLayer at h
  cases h1 : Key.fromSuffix? ((b.suf s).getD []) with
  | none => rw [h1] at h; cases h
  | some ek =>
    rw [h1] at h
    simp only at h
    generalize (if layerKeylenx ≤ b.klx s then Cell.null else b.cell s) = ce at h
    cases ce with
    | null => cases h
    | layer q => cases h
    | val ev =>
      simp only [bind, Except.bind] at h
      generalize hn : (if k.hasSuffix = true then k.shift else k) = nk at h
      cases h2 : twigLoop (nk.data.length + 1) t none 0 ek nk (ek.compare nk.ikey nk.currentLen) with
      | error e => rw [h2] at h; cases h
      | ok x =>
        rw [h2] at h
        have g0 : Grown t t := ⟨ht, Nat.le_refl _, fun _ _ => rfl⟩
        obtain ⟨g, htl⟩ := twig_clean _ g0 (fun e => absurd rfl e) h2
        obtain ⟨r1, r2⟩ := twig_count _ g0 (fun e => absurd rfl e) h2
        obtain ⟨t1, head, tail, ek1, nk1, c1⟩ := x
        simp only at h g htl r1 r2
        have hf := sufs_final ek1 ev nk1 v c1
        have hca := count_alloc (t := t1) true false (finalLeaf ek1 ev nk1 v c1)
        have hcc : (allocLeaf t1 true false (finalLeaf ek1 ev nk1 v c1)).1.count = t1.count := rfl
        have hb1 : (allocLeaf t1 true false (finalLeaf ek1 ev nk1 v c1)).1.body = upd t1.body t1.fresh (finalLeaf ek1 ev nk1 v c1) := rfl
        have hf1 : (allocLeaf t1 true false (finalLeaf ek1 ev nk1 v c1)).1.fresh = t1.fresh + 1 := rfl
        generalize allocLeaf t1 true false (finalLeaf ek1 ev nk1 v c1) = y at h hb1 hf1 hca hcc
        obtain ⟨t2, p2⟩ := y
        simp only at h hb1 hf1 hca hcc
        cases head with
        | none => simp only at h; cases h; exact ⟨by omega, by omega⟩
        | some hd =>
          simp only at h
          cases h
          have hto := htl (by simp)
          have hne : tail ≠ t1.fresh := by have := hto.lt; omega
          have hto2 : TailOK t t2 tail := ⟨hto.new, by have := hto.lt; omega, fun s => by rw [hb1, upd_ne _ _ _ hne]; exact hto.none s⟩
          refine ⟨?_, by show t2.count = t.count; omega⟩
          rw [hang_count hto2 (by rfl)]
          omega

end Verif.Tree

namespace Verif.Threads
open Verif.Spec
open Verif.Internode (Arr upd upd_same upd_ne)
open Verif.Perm (size get back insertFromBack swapFreeSlots params24)
open Verif.Tree
open Verif.Store (permOK_swap findAlt_spec)
variable {V : Type}
attribute [local irreducible] sufs

theorem store_count {t t1 t' : Tree V} (ht : CT t) {l : Nat} (hl : t.kind l = some .leaf) (H : Hull t t1) {s : Nat} {k : Key} {v : V}
    {perm : BitVec 128} (hs : ¬ Used (t.body l) s) (hs24 : s < 24)
    (e1 : t'.body = upd t1.body l { assignSlot (t.body l) s k v with perm := perm }) (e2 : t'.fresh = t1.fresh) :
    suffixCount t' ≤ suffixCount t + 1 := by
  have h0 := (ht.body l).unused hs
  obtain ⟨a1, a2, a3⟩ := assignSlot_ksuf (t.body l) s k v h0
  have c1 := sufs_change (b := t.body l) (nb := assignSlot (t.body l) s k v) hs24 a2
  have c2 := count_setBody (t := t1) (Nat.lt_of_lt_of_le (ht.lt hl) H.fresh) e2 e1
  have c3 := H.count ht
  have c4 : sufs ({ assignSlot (t.body l) s k v with perm := perm } : Leaf V) = sufs (assignSlot (t.body l) s k v) := sufs_congr rfl
  have c5 := one_le ((assignSlot (t.body l) s k v).ksuf s)
  rw [H.body] at c2
  omega

theorem critIn_count {v : V} {t t1 t' : Tree V} {k : Key} {r l : Nat} {x : Next V} (ht : CT t) (hl : t.kind l = some .leaf)
    (h2 : lock t l = .ok t1) (h : critIn v t t1 k r l = .ok (t', x)) :
    suffixCount t' + t.count ≤ suffixCount t + t'.count := by
  unfold critIn at h
  simp only [bind, Except.bind] at h
  have H := lock_hull h2
  have hk1 : t1.kind = t.kind := by
    unfold lock at h2
    split at h2
    · cases h2
    · cases h2; rfl
  have hc1 := lock_count h2
  have hs1 := H.count ht
  have done : suffixCount (unlock t1 l) + t.count ≤ suffixCount t + (unlock t1 l).count := by
    have : suffixCount (unlock t1 l) = suffixCount t1 := rfl
    show _ ≤ suffixCount t + t1.count
    omega
  have hlt := ht.lt hl
  have hlt1 : l < t1.fresh := Nat.lt_of_lt_of_le hlt H.fresh
  have ht1 := H.ct ht
  have hcb := ht.body l
  have hsl := hcb.perm.size_le
  have split : ∀ {ik : Nat} {t2 : Tree V}, handleLeafSplit t1 l ik = .ok t2 → suffixCount t2 + t.count ≤ suffixCount t + t2.count := by
    intro ik t2 e
    obtain ⟨g1, g2⟩ := split_count ht1 (by rw [hk1]; exact hl) e
    omega
  have hsp := searchForInsert_spec (t.body l) k (size 5 (t.body l).perm) 0
  cases h3 : searchForInsert (t.body l) k 0 (size 5 (t.body l).perm) with
  | found s =>
    rw [h3] at h
    simp only at h
    cases h4 : (t.body l).cell s with
    | null => rw [h4] at h; cases h; exact done
    | layer q => rw [h4] at h; cases h
    | val old =>
      rw [h4] at h; cases h
      have e : sufs ({ (t.body l) with cell := upd (t.body l).cell s (.val v) } : Leaf V) = sufs (t.body l) := sufs_congr rfl
      have fin := count_setBody_le (t := t1) (t' := unlock { t1 with body := upd t1.body l { (t.body l) with cell := upd (t.body l).cell s (.val v) } } l)
        (l := l) (nb := { (t.body l) with cell := upd (t.body l).cell s (.val v) }) (a := 0) (b := 0) hlt1 rfl rfl (by rw [e, H.body])
      have fin2 : ∀ z, z + 0 ≤ suffixCount t1 + 0 → z + t.count ≤ suffixCount t + t1.count := by
        intro z hz
        omega
      exact fin2 _ fin
  | notFound pos =>
    rw [h3] at h hsp
    simp only at h hsp
    have hpos : pos ≤ size 5 (t.body l).perm := by have := hsp.2.1; omega
    by_cases c1 : leafWidth ≤ size 5 (t.body l).perm
    · rw [if_pos c1] at h
      cases h5 : handleLeafSplit t1 l k.ikey with
      | error e => rw [h5] at h; cases h
      | ok t2 => rw [h5] at h; cases h; exact split h5
    · rw [if_neg c1] at h
      have hsz : size 5 (t.body l).perm < 24 := by unfold leafWidth at c1; omega
      by_cases c2 : back 5 24 (t.body l).perm = 0 ∧ canReuseSlot0 t1 l k.ikey = false
      · rw [if_pos c2] at h
        cases h6 : findAlt (t.body l).perm 1 (leafWidth - size 5 (t.body l).perm - 1) with
        | none =>
          rw [h6] at h
          simp only at h
          cases h5 : handleLeafSplit t1 l k.ikey with
          | error e => rw [h5] at h; cases h
          | ok t2 => rw [h5] at h; cases h; exact split h5
        | some ao =>
          obtain ⟨alt, off⟩ := ao
          rw [h6] at h
          simp only at h
          obtain ⟨o1, o2, o3⟩ := findAlt_spec h6
          unfold leafWidth at o2
          cases h
          have ho : off < 24 - size 5 (t.body l).perm := by omega
          have := store_count (t' := { unlock { t1 with body := upd t1.body l { assignSlot (t.body l) alt k v with
              perm := (insertFromBack 5 24 (swapFreeSlots 5 (t.body l).perm 23 (23 - off)) pos).1 } } l with count := t1.count + 1 })
            ht hl H (s := alt) (k := k) (v := v) (by rw [o3]; exact free_unused hcb.perm ho) (by rw [o3]; exact hcb.perm.lt _ (by omega)) rfl rfl
          refine Nat.le_trans (Nat.add_le_add_right this _) ?_
          show _ ≤ suffixCount t + (t1.count + 1)
          omega
      · rw [if_neg c2] at h
        cases h
        have := store_count (t' := { unlock { t1 with body := upd t1.body l { assignSlot (t.body l) (back 5 24 (t.body l).perm) k v with
              perm := (insertFromBack 5 24 (t.body l).perm pos).1 } } l with count := t1.count + 1 })
            ht hl H (s := back 5 24 (t.body l).perm) (k := k) (v := v) (free_unused hcb.perm (off := 0) (by omega)) (hcb.perm.lt 23 (by omega)) rfl rfl
        refine Nat.le_trans (Nat.add_le_add_right this _) ?_
        show _ ≤ suffixCount t + (t1.count + 1)
        omega
  | layer s =>
    rw [h3] at h
    simp only at h
    cases h4 : (t.body l).cell s with
    | null => rw [h4] at h; cases h
    | val old => rw [h4] at h; cases h
    | layer q => rw [h4] at h; cases h; exact done
  | conflict s =>
    rw [h3] at h hsp
    simp only at h hsp
    obtain ⟨j, -, hj, hs, -, -, hk64, -⟩ := hsp
    cases h5 : createLayer t1 (t.body l) s k v with
    | error e => rw [h5] at h; cases h
    | ok y =>
      obtain ⟨t2, p⟩ := y
      rw [h5] at h
      cases h
      have g := layer_clean ht1 h5
      obtain ⟨g1, g2⟩ := layer_count ht1 h5
      have hb2 : t2.body l = t.body l := by rw [g.body l hlt1, H.body]
      have hs24 : s < 24 := by rw [hs]; exact hcb.perm.lt j (by omega)
      have hsome : (t.body l).ksuf s ≠ none := (hcb.clean s).2 ⟨⟨j, by omega, hs.symm⟩, hk64⟩
      have e := sufs_change (b := t.body l) (nb := { (t.body l) with ksuf := upd (t.body l).ksuf s none, klx := upd (t.body l).klx s layerKeylenx, cell := upd (t.body l).cell s (.layer p) }) hs24 (fun x hx => upd_ne _ _ _ hx)
      have e0 : one (upd (t.body l).ksuf s none s) = 0 := by rw [upd_same]; rfl
      have e1 : sufs ({ (t.body l) with ksuf := upd (t.body l).ksuf s none, klx := upd (t.body l).klx s layerKeylenx, cell := upd (t.body l).cell s (.layer p) } : Leaf V) + 1 = sufs (t.body l) := by
        rw [one_pos hsome, e0] at e
        exact e
      clear e
      have fin := count_setBody_le (t := t2) (t' := { unlock { t2 with body := upd t2.body l { (t.body l) with ksuf := upd (t.body l).ksuf s none, klx := upd (t.body l).klx s layerKeylenx, cell := upd (t.body l).cell s (.layer p) } } l with count := t2.count + 1 })
        (l := l) (nb := { (t.body l) with ksuf := upd (t.body l).ksuf s none, klx := upd (t.body l).klx s layerKeylenx, cell := upd (t.body l).cell s (.layer p) }) (a := 1 + t.count) (b := t.count) (Nat.lt_of_lt_of_le hlt1 g.le) rfl rfl (by rw [hb2, ← e1]; omega)
      have fin2 : ∀ z, z + (1 + t.count) ≤ suffixCount t2 + t.count → z + t.count ≤ suffixCount t + (t2.count + 1) := by
        intro z hz
        omega
      exact fin2 _ fin

theorem crit_count {v : V} {t t' : Tree V} {k : Key} {r l : Nat} {x : Next V} (ht : CT t) (h : crit v t k r l = .ok (t', x)) :
    suffixCount t' + t.count ≤ suffixCount t + t'.count := by
  unfold crit at h
  simp only [bind, Except.bind] at h
  cases h1 : leafAt t l with
  | error e => rw [h1] at h; cases h
  | ok b =>
    have hkb : t.kind l = some .leaf ∧ b = t.body l := by
      unfold leafAt at h1
      split at h1
      · next e => cases h1; exact ⟨e, rfl⟩
      · cases h1
    obtain ⟨hl, rfl⟩ := hkb
    rw [h1] at h
    simp only at h
    cases h2 : lock t l with
    | error e => rw [h2] at h; cases h
    | ok t1 =>
      rw [h2] at h
      simp only at h
      have H := lock_hull h2
      have done : suffixCount (unlock t1 l) + t.count ≤ suffixCount t + (unlock t1 l).count := by
        have : suffixCount (unlock t1 l) = suffixCount t1 := rfl
        have := lock_count h2
        have := H.count ht
        show _ ≤ suffixCount t + t1.count
        omega
      have rest : critIn v t t1 k r l = .ok (t', x) → suffixCount t' + t.count ≤ suffixCount t + t'.count := critIn_count ht hl h2
      split at h
      rotate_left
      · rename_i q hq
        cases hi : ikeyBound t1 q with
        | error e => rw [hi] at h; cases h
        | ok nb =>
          rw [hi] at h
          simp only at h
          by_cases cm : nb ≤ k.ikey
          · rw [decide_eq_true cm] at h
            simp only [if_true] at h; cases h; exact done
          · rw [decide_eq_false cm] at h
            simp only [Bool.false_eq_true, if_false] at h
            exact rest h
      · simp only [Bool.false_eq_true, if_false] at h
        exact rest h

theorem step_count {fixed : Bool} {t : Tree V} {c : Pc V} (ht : CT t) :
    suffixCount (step fixed t c).1 + t.count ≤ suffixCount t + (step fixed t c).1.count := by
  have same : suffixCount t + t.count ≤ suffixCount t + t.count := Nat.le_refl _
  cases c with
  | sect o k r l =>
    cases o with
    | get d => exact same
    | insert d v =>
      simp only [step]
      cases h : crit v t k r l with
      | error e => exact same
      | ok y =>
        obtain ⟨t', x⟩ := y
        have := crit_count ht h
        cases x with
        | again k' lr => exact this
        | done z => exact this
  | adv o k r n l =>
    cases n with
    | zero => exact same
    | succ n =>
      simp only [step]
      repeat' split
      all_goals exact same
  | desc o k r p =>
    simp only [step]
    repeat' split
    all_goals exact same
  | climb o k p =>
    simp only [step]
    repeat' split
    all_goals exact same
  | next o k l =>
    simp only [step]
    repeat' split
    all_goals exact same
  | _ => exact same

theorem act_count {fixed : Bool} {s : St V} (a : Act V) (ht : CT s.tree) :
    suffixCount (act fixed s a).tree + s.tree.count ≤ suffixCount s.tree + (act fixed s a).tree.count := by
  cases a with
  | call i o =>
    simp only [act]
    repeat' split
    all_goals exact Nat.le_refl _
  | run i => exact step_count ht

theorem insertLoop_count {v : V} : ∀ (f : Nat) {t t' : Tree V} {k : Key} {lr : Nat} {x : Option V}, CT t →
    insertLoop v f t k lr = .ok (t', x) → suffixCount t' + t.count ≤ suffixCount t + t'.count
  | 0, t, t', k, lr, x, _, h => by cases h
  | f + 1, t, t', k, lr, x, ht, h => by
    rw [insertLoop_eq] at h
    simp only [bind, Except.bind] at h
    split at h
    · cases h
    · split at h
      · cases h
      · split at h
        · cases h
        · split at h
          · exact insertLoop_count f ht h
          · split at h
            · cases h
            · rename_i y hy
              obtain ⟨t1, n⟩ := y
              have h1 := (crit_clean ht hy).1
              have h2 := crit_count ht hy
              cases n with
              | again k' lr' => have := insertLoop_count f h1 h; omega
              | done z => cases h; exact h2

theorem count_empty : suffixCount (empty : Tree V) = 0 :=
  Finset.sum_eq_zero fun p _ => sufs_none fun s => by
    simp only [empty, allocLeaf, upd]; split <;> rfl

end Verif.Threads
