import Verif.Model.Tree
set_option linter.unusedSimpArgs false
set_option linter.unusedVariables false
/-!
# The tree does not look at values

Every tree operation commutes with renaming the values.  Used to pass from trees of pointers to trees of values.
-/
namespace Verif.Tree
open Verif.Spec (Bytes)
open Verif.Internode (Arr upd insertKeyAndChild splitInto)
open Verif.Perm (size get back backAtOffset insertFromBack swapFreeSlots setSize makeSorted24)
variable {A B : Type} (f : A → B)

/-- Rename the value of a cell. -/
def Cell.map : Cell A → Cell B
  | .null => .null
  | .val v => .val (f v)
  | .layer p => .layer p

/-- Rename the values of a leaf. -/
def Leaf.map (b : Leaf A) : Leaf B := ⟨b.perm, b.ikey, b.klx, fun s => (b.cell s).map f, b.ksuf⟩

/-- Rename the values of a tree. -/
def Tree.map (t : Tree A) : Tree B where
  kind := t.kind
  rootf := t.rootf
  locked := t.locked
  parent := t.parent
  next := t.next
  prev := t.prev
  body := fun p => (t.body p).map f
  height := t.height
  arr := t.arr
  fresh := t.fresh
  root := t.root
  count := t.count

theorem map_upd {P Q : Type} (g : P → Q) (c : Nat → P) (i : Nat) (x : P) :
    (fun s => g (upd c i x s)) = upd (fun s => g (c s)) i (g x) := by
  funext s; unfold upd; split <;> rfl

theorem emptyLeaf_map : (emptyLeaf : Leaf A).map f = emptyLeaf := rfl

theorem Tree.map_setBody (t : Tree A) (l : Nat) (b : Leaf A) :
    ({ t with body := upd t.body l b } : Tree A).map f = { t.map f with body := upd (t.map f).body l (b.map f) } := by
  simp only [Tree.map, map_upd (Leaf.map f)]

theorem allocLeaf_map (t : Tree A) (r lk : Bool) (b : Leaf A) :
    allocLeaf (t.map f) r lk (b.map f) = ((allocLeaf t r lk b).1.map f, (allocLeaf t r lk b).2) := by
  simp only [allocLeaf, Tree.map, map_upd (Leaf.map f)]

theorem allocInode_map (t : Tree A) (r lk : Bool) (h : Nat) (a : Arr (Option Nat)) :
    allocInode (t.map f) r lk h a = ((allocInode t r lk h a).1.map f, (allocInode t r lk h a).2) := rfl

theorem leafAt_map (t : Tree A) (p : Nat) : leafAt (t.map f) p = (leafAt t p).map (Leaf.map f) := by
  unfold leafAt
  change (match t.kind p with | some .leaf => _ | _ => _) = _
  rcases t.kind p with _ | _ | _ <;> rfl

theorem stable_map (t : Tree A) (p : Nat) : stable (t.map f) p = stable t p := rfl

theorem lock_map (t : Tree A) (p : Nat) : lock (t.map f) p = (lock t p).map (Tree.map f) := by
  unfold lock
  change (if t.locked p then _ else _) = _
  split <;> rfl

theorem levels_map (t : Tree A) : levels (t.map f) = levels t := rfl
theorem walkFuel_map (t : Tree A) : walkFuel (t.map f) = walkFuel t := rfl

theorem maybeParent_map (t : Tree A) : ∀ n p, maybeParent (t.map f) n p = maybeParent t n p
  | 0, _ => rfl
  | n + 1, p => by
    simp only [maybeParent]
    change (match t.kind p with | none => _ | some _ => _) = _
    cases t.kind p with
    | none => rfl
    | some k =>
      change (match t.parent p with | none => _ | some _ => _) = _
      cases t.parent p with
      | none => rfl
      | some q => exact maybeParent_map t n q

theorem reachLeaf_map (t : Tree A) (start ik : Nat) : ∀ n p, reachLeaf (t.map f) start ik n p = reachLeaf t start ik n p
  | 0, _ => rfl
  | n + 1, p => by
    have ih := reachLeaf_map t start ik n
    simp only [reachLeaf, stable_map]
    change (match t.kind p with | none => _ | some .leaf => _ | some .inode => _) = _
    rcases t.kind p with _ | _ | _
    · rfl
    · rfl
    · simp only [ih]; rfl

theorem suf_map (b : Leaf A) (s : Nat) : (b.map f).suf s = b.suf s := rfl

theorem slotMatches_map (b : Leaf A) (k : Key) (s : Nat) : slotMatches (b.map f) k s = slotMatches b k s := by
  unfold slotMatches
  simp only [suf_map, Leaf.map]
  cases b.cell s <;> rfl

theorem searchGet_map (b : Leaf A) (k : Key) : ∀ n i, searchGet (b.map f) k i n = searchGet b k i n
  | 0, _ => rfl
  | n + 1, i => by
    simp only [searchGet, slotMatches_map, searchGet_map b k n]; rfl

theorem ikeyBound_map (t : Tree A) (p : Nat) : ikeyBound (t.map f) p = ikeyBound t p := by
  unfold ikeyBound
  rw [leafAt_map]
  cases leafAt t p <;> rfl

/-- Rename the value of a search outcome. -/
def GetRes.map : GetRes A → GetRes B
  | .absent => .absent
  | .value v => .value (f v)
  | .descend p => .descend p

theorem leafLoop_map (t : Tree A) (k : Key) : ∀ n p, leafLoop (t.map f) k n p = (leafLoop t k n p).map (GetRes.map f)
  | 0, _ => rfl
  | n + 1, p => by
    simp only [leafLoop, leafAt_map, stable_map]
    cases leafAt t p with
    | error e => rfl
    | ok b =>
      cases stable t p with
      | error e => rfl
      | ok u =>
        simp only [Except.map, bind, Except.bind, searchGet_map]
        change (match searchGet b k 0 (size 5 b.perm) with | some s => _ | none => _) = _
        cases searchGet b k 0 (size 5 b.perm) with
        | some s =>
          simp only [Leaf.map]
          by_cases c : layerKeylenx ≤ b.klx s
          · simp only [c, if_true]
            cases b.cell s <;> rfl
          · simp only [c, if_false]
            cases b.cell s <;> rfl
        | none =>
          change (match t.next p with | none => _ | some _ => _) = _
          cases t.next p with
          | none => rfl
          | some q =>
            simp only [ikeyBound_map]
            cases ikeyBound t q with
            | error e => rfl
            | ok nb =>
              simp only []
              split
              · exact leafLoop_map t k n q
              · rfl

theorem getLoop_map (t : Tree A) : ∀ n k p, getLoop (t.map f) n k p = (getLoop t n k p).map (Option.map f)
  | 0, _, _ => rfl
  | n + 1, k, p => by
    simp only [getLoop, walkFuel_map, maybeParent_map, reachLeaf_map, leafLoop_map]
    cases maybeParent t (walkFuel t) p with
    | error e => rfl
    | ok r =>
      simp only [bind, Except.bind]
      cases reachLeaf t r k.ikey (walkFuel t) r with
      | error e => rfl
      | ok l =>
        simp only []
        cases leafLoop t k chainFuel l with
        | error e => rfl
        | ok x =>
          cases x with
          | absent => rfl
          | value v => rfl
          | descend q => exact getLoop_map t n k.shift q

theorem get_map (t : Tree A) (d : Bytes) : get' (t.map f) d = (get' t d).map (Option.map f) := by
  unfold get'
  cases Key.new? d with
  | none => rfl
  | some k => exact getLoop_map f t _ k t.root

theorem searchForInsert_map (b : Leaf A) (k : Key) : ∀ n i, searchForInsert (b.map f) k i n = searchForInsert b k i n
  | 0, _ => rfl
  | n + 1, i => by
    simp only [searchForInsert, searchForInsert_map b k n]
    simp only [suf_map, Leaf.map]
    cases b.cell (get 5 b.perm i) <;> rfl

theorem advance_map (t : Tree A) (ik : Nat) : ∀ n p, advance (t.map f) ik n p = advance t ik n p
  | 0, _ => rfl
  | n + 1, p => by
    have ih := advance_map t ik n
    simp only [advance, ikeyBound_map, ih]
    rfl

theorem assignSlot_map (b : Leaf A) (s : Nat) (k : Key) (v : A) :
    assignSlot (b.map f) s k (f v) = (assignSlot b s k v).map f := by
  unfold assignSlot
  split <;> simp only [Leaf.map, map_upd (Cell.map f)] <;> rfl

theorem assignFromKey_map (b : Leaf A) (s : Nat) (k : Key) (v : A) :
    assignFromKey (b.map f) s k (f v) = (assignFromKey b s k v).map f := by
  unfold assignFromKey
  split <;> simp only [Leaf.map, map_upd (Cell.map f)] <;> rfl

theorem splitPosLoop_map (b : Leaf A) (sz ik : Nat) : ∀ n p, splitPosLoop (b.map f) sz ik n p = splitPosLoop b sz ik n p
  | 0, _ => rfl
  | n + 1, p => by
    simp only [splitPosLoop, splitPosLoop_map b sz ik n]; rfl

theorem calcSplitPoint_map (b : Leaf A) (ik : Nat) : calcSplitPoint (b.map f) ik = calcSplitPoint b ik := by
  unfold calcSplitPoint
  simp only [splitPosLoop_map]; rfl

/-- Rename in both leaves. -/
def pmap (x : Leaf A × Leaf A) : Leaf B × Leaf B := (x.1.map f, x.2.map f)

theorem moveOne_map (p : BitVec 128) (pos i : Nat) (x : Leaf A × Leaf A) :
    moveOne p pos i (pmap f x) = pmap f (moveOne p pos i x) := by
  unfold moveOne pmap
  simp only [Leaf.map]
  by_cases c : x.1.klx (get 5 p (pos + i)) = ksufKeylenx
  · simp only [c, if_true]
    cases x.1.ksuf (get 5 p (pos + i)) <;> simp only [map_upd (Cell.map f)] <;> rfl
  · simp only [c, if_false, map_upd (Cell.map f)]; rfl

theorem moveLoop_map (p : BitVec 128) (pos : Nat) (x : Leaf A × Leaf A) : ∀ n,
    moveLoop p pos (pmap f x) n = pmap f (moveLoop p pos x n)
  | 0 => rfl
  | n + 1 => by simp only [moveLoop, moveLoop_map p pos x n, moveOne_map]

theorem splitLeaf_map (b : Leaf A) (pos : Nat) :
    splitLeaf (b.map f) pos = ((splitLeaf b pos).1.map f, (splitLeaf b pos).2.1.map f, (splitLeaf b pos).2.2) := by
  have e := moveLoop_map f b.perm pos (b, emptyLeaf) (size 5 b.perm - pos)
  have e : moveLoop b.perm pos (b.map f, emptyLeaf) (size 5 b.perm - pos) =
    pmap f (moveLoop b.perm pos (b, emptyLeaf) (size 5 b.perm - pos)) := e
  have ep : (b.map f).perm = b.perm := rfl
  simp only [splitLeaf, ep, e]
  rfl

theorem linkSibling_map (t : Tree A) (l r : Nat) : linkSibling (t.map f) l r = (linkSibling t l r).map (Tree.map f) := by
  have e1 : (t.map f).next l = t.next l := rfl
  have e2 : (t.map f).kind = t.kind := rfl
  simp only [linkSibling, e1, e2]
  cases t.next l with
  | none => rfl
  | some q =>
    simp only []
    rcases t.kind q with _ | _ | _ <;> rfl

theorem getParent_map (t : Tree A) (p : Nat) (b : Bool) : getParent (t.map f) p b = getParent t p b := rfl

theorem setParent_map (t : Tree A) (p q : Nat) (b : Bool) : setParent (t.map f) p q b = (setParent t p q b).map (Tree.map f) := by
  unfold setParent
  by_cases c : t.kind p = some (if b then Kind.leaf else Kind.inode)
  · rw [if_pos (show (t.map f).kind p = _ from c), if_pos c]; rfl
  · rw [if_neg (show ¬ (t.map f).kind p = _ from c), if_neg c]; rfl

theorem promoteLayerRoot_map (t : Tree A) (l r s : Nat) (b : Bool) :
    promoteLayerRoot (t.map f) l r s b = (promoteLayerRoot t l r s b).map (Tree.map f) := by
  have eh : (t.map f).height l = t.height l := rfl
  simp only [promoteLayerRoot, allocInode_map, setParent_map, eh]
  generalize allocInode t true false (if b = true then 0 else t.height l + 1) (rootArr l r s) = x
  obtain ⟨t1, n⟩ := x
  simp only [bind, Except.bind]
  cases setParent t1 l n b with
  | error e => rfl
  | ok t2 =>
    simp only [Except.map, setParent_map]
    cases setParent t2 r n b <;> rfl

theorem createMainRoot_map (t : Tree A) (l r s : Nat) (b : Bool) :
    createMainRoot (t.map f) l r s b = (createMainRoot t l r s b).map (Tree.map f) := by
  have eh : (t.map f).height l = t.height l := rfl
  simp only [createMainRoot, allocInode_map, eh]
  generalize allocInode t true false (if b = true then 0 else t.height l + 1) (rootArr l r s) = x
  obtain ⟨t1, n⟩ := x
  simp only [bind, Except.bind]
  by_cases c : t1.root = l
  · have c' : (t1.map f).root = l := c
    simp only [ne_eq, c, c', not_true_eq_false, if_false]
    have e : ({ t1.map f with root := n } : Tree B) = ({ t1 with root := n } : Tree A).map f := rfl
    rw [e, setParent_map]
    cases setParent { t1 with root := n } l n b with
    | error e => rfl
    | ok t2 =>
      simp only [Except.map, setParent_map]
      cases setParent t2 r n b <;> rfl
  · have c' : ¬ (t1.map f).root = l := c
    simp only [ne_eq, c, c', not_false_eq_true, if_true]
    rfl

theorem setParents_map (t : Tree A) (a : Arr (Option Nat)) (sib : Nat) (b : Bool) : ∀ n,
    setParents (t.map f) a sib b n = (setParents t a sib b n).map (Tree.map f)
  | 0 => rfl
  | n + 1 => by
    simp only [setParents, setParents_map t a sib b n]
    cases setParents t a sib b n with
    | error e => rfl
    | ok t1 =>
      simp only [Except.map, bind, Except.bind]
      cases a.child n with
      | none => rfl
      | some c => exact setParent_map f t1 c sib b

theorem unlock_map (t : Tree A) (p : Nat) : unlock (t.map f) p = (unlock t p).map f := rfl
theorem unlockSplit_map (t : Tree A) (p : Nat) : unlockSplit (t.map f) p = (unlockSplit t p).map f := rfl

theorem propagate_map : ∀ n (t : Tree A) l r s m y b,
    propagate n (t.map f) l r s m y b = (propagate n t l r s m y b).map (Tree.map f)
  | 0, _, _, _, _, _, _, _ => rfl
  | n + 1, t, l, r, s, m, y, b => by
    have ih := propagate_map n
    simp only [propagate, getParent_map]
    cases getParent t l b with
    | error e => rfl
    | ok x =>
      simp only [bind, Except.bind]
      cases x with
      | none =>
        simp only [promoteLayerRoot_map, createMainRoot_map]
        cases y with
        | true =>
          simp only [if_true]
          cases promoteLayerRoot t l r s b <;> rfl
        | false =>
          cases m with
          | true =>
            simp only [if_true, Bool.false_eq_true, if_false]
            cases createMainRoot t l r s b <;> rfl
          | false => rfl
      | some p =>
        simp only []
        by_cases c : t.kind p ≠ some .inode
        · rw [if_pos (show (t.map f).kind p ≠ some .inode from c), if_pos c]; rfl
        · rw [if_neg (show ¬ (t.map f).kind p ≠ some .inode from c), if_neg c, lock_map]
          cases lock t p with
          | error e => rfl
          | ok t1 =>
            simp only [Except.map]
            change (match findChild (t1.arr p) l 0 ((t1.arr p).nkeys + 1) with | none => _ | some _ => _) = _
            cases findChild (t1.arr p) l 0 ((t1.arr p).nkeys + 1) with
            | none => rfl
            | some idx =>
              simp only []
              by_cases c2 : (t1.arr p).nkeys < inodeWidth
              · rw [if_pos (show ((t1.map f).arr p).nkeys < inodeWidth from c2), if_pos c2]
                have e : ({ t1.map f with arr := upd (t1.map f).arr p (insertKeyAndChild ((t1.map f).arr p) idx s (some r)) } : Tree B)
                  = ({ t1 with arr := upd t1.arr p (insertKeyAndChild (t1.arr p) idx s (some r)) } : Tree A).map f := rfl
                rw [e, setParent_map]
                cases setParent { t1 with arr := upd t1.arr p (insertKeyAndChild (t1.arr p) idx s (some r)) } r p b <;> rfl
              · rw [if_neg (show ¬ ((t1.map f).arr p).nkeys < inodeWidth from c2), if_neg c2]
                simp only [allocInode_map]
                generalize hx : allocInode t1 false true (t1.height p) emptyArr = x
                have hx' : allocInode t1 false true ((t1.map f).height p) emptyArr = x := hx
                rw [hx']
                obtain ⟨t2, sib⟩ := x
                simp only []
                generalize hw : splitInto inodeWidth (t1.arr p) emptyArr idx s (some r) = w
                have hw' : splitInto inodeWidth ((t1.map f).arr p) emptyArr idx s (some r) = w := hw
                rw [hw']
                obtain ⟨la, ra, popup, wl⟩ := w
                simp only []
                have e : ({ t2.map f with arr := upd (upd (t2.map f).arr p la) sib ra } : Tree B)
                  = ({ t2 with arr := upd (upd t2.arr p la) sib ra } : Tree A).map f := rfl
                rw [e]
                rw [setParents_map]
                have e2 : (t2.map f).height p = t2.height p := rfl
                rw [e2]
                cases setParents { t2 with arr := upd (upd t2.arr p la) sib ra } ra sib
                  (t2.height p == 0) (ra.nkeys + 1) with
                | error e => rfl
                | ok t3 =>
                  simp only [Except.map, setParent_map]
                  cases setParent t3 r (if wl then p else sib) b with
                  | error e => rfl
                  | ok t4 =>
                    exact ih (unlockSplit (unlockSplit t4 r) l) p sib popup (t1.root == p)
                      (!(t1.root == p) && (t1.parent p).isNone && t1.rootf p) false

theorem handleLeafSplit_map (t : Tree A) (l ik : Nat) :
    handleLeafSplit (t.map f) l ik = (handleLeafSplit t l ik).map (Tree.map f) := by
  unfold handleLeafSplit
  have eb : (t.map f).body l = (t.body l).map f := rfl
  simp only [eb, calcSplitPoint_map, splitLeaf_map, allocLeaf_map]
  cases calcSplitPoint (t.body l) ik with
  | none => rfl
  | some pos =>
    simp only []
    rw [← Tree.map_setBody, linkSibling_map]
    generalize allocLeaf t false true (splitLeaf (t.body l) pos).2.1 = x
    obtain ⟨t1, r⟩ := x
    simp only []
    cases linkSibling { t1 with body := upd t1.body l (splitLeaf (t.body l) pos).1 } l r with
    | error e => rfl
    | ok t2 => exact propagate_map f _ _ _ _ _ _ _ _

/-- Rename in the result of the twig loop. -/
def twigMap (x : Tree A × Option Nat × Nat × Key × Key × Ordering) : Tree B × Option Nat × Nat × Key × Key × Ordering :=
  (x.1.map f, x.2)

theorem twigLoop_map : ∀ n (t : Tree A) hd tl ek nk c,
    twigLoop n (t.map f) hd tl ek nk c = (twigLoop n t hd tl ek nk c).map (twigMap f)
  | 0, _, _, _, _, _, _ => rfl
  | n + 1, t, hd, tl, ek, nk, c => by
    have ih := twigLoop_map n
    simp only [twigLoop]
    by_cases h : c = .eq ∧ ek.hasSuffix ∧ nk.hasSuffix
    · rw [if_pos h, if_pos h]
      have e := allocLeaf_map f t true false { emptyLeaf with ikey := upd (fun _ => 0) 0 ek.ikey, perm := makeSorted24 1 }
      have e : allocLeaf (t.map f) true false ({ emptyLeaf with ikey := upd (fun _ => 0) 0 ek.ikey, perm := makeSorted24 1 } : Leaf B) = _ := e
      rw [e]
      generalize allocLeaf t true false { emptyLeaf with ikey := upd (fun _ => 0) 0 ek.ikey, perm := makeSorted24 1 } = x
      obtain ⟨t1, p⟩ := x
      cases hd with
      | none => exact ih _ _ _ _ _ _
      | some h0 =>
        simp only []
        rw [← ih]
        congr 1
        rw [Tree.map_setBody]
        simp only [Leaf.map, map_upd (Cell.map f)]
        rfl
    · rw [if_neg h, if_neg h]; rfl

theorem finalLeaf_map (ek : Key) (ev : A) (nk : Key) (nv : A) (c : Ordering) :
    finalLeaf ek (f ev) nk (f nv) c = (finalLeaf ek ev nk nv c).map f := by
  unfold finalLeaf
  simp only [← emptyLeaf_map f, assignFromKey_map]
  cases c with
  | lt => rfl
  | gt => rfl
  | eq => by_cases h : ek.currentLen ≤ nk.currentLen <;> simp only [h, decide_true, decide_false, if_true, Bool.false_eq_true, if_false] <;> rfl

theorem empty_map : (empty : Tree A).map f = empty := by
  unfold empty
  simp only [allocLeaf, Tree.map]
  congr 1
  funext p
  unfold upd
  split <;> rfl

end Verif.Tree
