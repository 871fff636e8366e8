/-!
# Internodes

Model of `/repo/src/internode.rs`: the key and child arrays and the operations on them.  Arrays are total functions on
indices; the width is the argument `W` where it matters.  `child` covers both `child[0..WIDTH]` and `rightmost_child`
(internode.rs:339-372 selects between them by index).  `P` is the type of child pointers.
The version word, the parent pointer and memory orderings are modelled elsewhere.
-/
namespace Verif.Internode

/-- Keys and children of an internode: internode.rs:82-137. -/
structure Arr (P : Type) where
  nkeys : Nat
  ikey : Nat → Nat
  child : Nat → P

variable {P : Type}

/-- Store to one array cell. -/
def upd {α : Type} (f : Nat → α) (i : Nat) (a : α) : Nat → α := fun j => if j = i then a else f j

/-- Loop of `insert_key_and_child`, `for i in (p..p+k).rev()`: internode.rs:442-448. -/
def shiftRight (p : Nat) : Nat → Arr P → Arr P
  | 0, a => a
  | k + 1, a =>
    let i := p + k
    shiftRight p k { a with ikey := upd a.ikey (i + 1) (a.ikey i), child := upd a.child (i + 2) (a.child (i + 1)) }

/-- `insert_key_and_child`: internode.rs:433-458. -/
def insertKeyAndChild (a : Arr P) (p newIkey : Nat) (newChild : P) : Arr P :=
  let n := a.nkeys
  let b := shiftRight p (n - p) a
  { nkeys := n + 1, ikey := upd b.ikey p newIkey, child := upd b.child (p + 1) newChild }

/-- `shift_from`: internode.rs:475-481. -/
def shiftFrom (dst : Arr P) (dstPos : Nat) (src : Arr P) (srcPos : Nat) : Nat → Arr P
  | 0 => dst
  | count + 1 =>
    let d := shiftFrom dst dstPos src srcPos count
    { d with ikey := upd d.ikey (dstPos + count) (src.ikey (srcPos + count)),
             child := upd d.child (dstPos + 1 + count) (src.child (srcPos + 1 + count)) }

/-- `split_into`: internode.rs:558-688, without the parent-pointer updates of 634-679.
Returns the left node, the right node, the popup key and `insert_went_left`. -/
def splitInto (W : Nat) (a right : Arr P) (pos ik : Nat) (ch : P) : Arr P × Arr P × Nat × Bool :=
  let mid := (W + 1) / 2
  if pos < mid then
    let r := { right with child := upd right.child 0 (a.child mid) }
    let r := shiftFrom r 0 a mid (W - mid)
    let r := { r with nkeys := W - mid }
    let popup := a.ikey (mid - 1)
    let l := insertKeyAndChild { a with nkeys := mid - 1 } pos ik ch
    (l, r, popup, true)
  else if pos = mid then
    let r := { right with child := upd right.child 0 ch }
    let r := shiftFrom r 0 a mid (W - mid)
    let r := { r with nkeys := W - mid }
    ({ a with nkeys := mid }, r, ik, false)
  else
    let rpos := pos - (mid + 1)
    let r := { right with child := upd right.child 0 (a.child (mid + 1)) }
    let r := shiftFrom r 0 a (mid + 1) rpos
    let r := { r with ikey := upd r.ikey rpos ik, child := upd r.child (rpos + 1) ch }
    let r := shiftFrom r (rpos + 1) a pos (W - pos)
    let r := { r with nkeys := W - mid }
    let popup := a.ikey mid
    ({ a with nkeys := mid }, r, popup, false)

/-- Loop of `find_insert_position`: internode.rs:752-759. -/
def findLoop (ikey : Nat → Nat) (t lo hi : Nat) : Nat :=
  if _h : lo < hi then
    let mid := (lo + hi) / 2
    if ikey mid < t then findLoop ikey t (mid + 1) hi else findLoop ikey t lo mid
  else lo
termination_by hi - lo
decreasing_by all_goals omega

/-- `find_insert_position`: internode.rs:746-762. -/
def findInsertPosition (a : Arr P) (t : Nat) : Nat := findLoop a.ikey t 0 a.nkeys

/-- Keys in order. -/
def Arr.keys (a : Arr P) : List Nat := (List.range a.nkeys).map a.ikey
/-- Children in order. -/
def Arr.kids (a : Arr P) : List P := (List.range (a.nkeys + 1)).map a.child

end Verif.Internode
