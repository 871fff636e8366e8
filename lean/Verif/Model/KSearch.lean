import Verif.Model.Permuter
/-!
# Key search inside a node

Model of `/repo/src/ksearch.rs`.  Loops `while l < r` are well-founded recursions; `(l + r) >> 1` is
`(l + r) / 2` (`usize` overflow cannot happen for node-sized arguments and is not modelled).
The comparison closure is a function from physical slot to `Ordering`, `Ordering::Less` meaning "search key is less than
the key in the slot".  `perm.get` is the argument `pg`.
-/
namespace Verif.KSearch

/-- `KeyIndexPosition`: ksearch.rs:36-42.  `p = none` is the sentinel `NOT_FOUND = usize::MAX`. -/
structure Pos where
  i : Nat
  p : Option Nat
deriving DecidableEq, Repr

/-- `found`: ksearch.rs:51-53. -/
def Pos.found (i p : Nat) : Pos := ⟨i, some p⟩
/-- `not_found`: ksearch.rs:58-63. -/
def Pos.notFound (i : Nat) : Pos := ⟨i, none⟩
/-- `is_found`: ksearch.rs:68-70. -/
def Pos.isFound (x : Pos) : Bool := x.p.isSome
/-- `try_slot`: ksearch.rs:87-93. -/
def Pos.trySlot (x : Pos) : Option Nat := x.p

/-- Loop of `lower_bound_by`: ksearch.rs:133-156. -/
def lowerLoop (pg : Nat → Nat) (cmp : Nat → Ordering) (l r : Nat) : Pos :=
  if _h : l < r then
    let m := (l + r) / 2
    match cmp (pg m) with
    | .lt => lowerLoop pg cmp l m
    | .eq => Pos.found m (pg m)
    | .gt => lowerLoop pg cmp (m + 1) r
  else Pos.notFound l
termination_by r - l
decreasing_by all_goals omega

/-- `lower_bound_by`: ksearch.rs:122-157. -/
def lowerBoundBy (size : Nat) (pg : Nat → Nat) (cmp : Nat → Ordering) : Pos := lowerLoop pg cmp 0 size

/-- Loop of `upper_bound_by`: ksearch.rs:185-205; also `upper_bound_internode_direct` 331-350 and
`upper_bound_internode_generic` 373-392 (with `pg` the identity). -/
def upperLoop (pg : Nat → Nat) (cmp : Nat → Ordering) (l r : Nat) : Nat :=
  if _h : l < r then
    let m := (l + r) / 2
    match cmp (pg m) with
    | .lt => upperLoop pg cmp l m
    | .eq => m + 1
    | .gt => upperLoop pg cmp (m + 1) r
  else l
termination_by r - l
decreasing_by all_goals omega

/-- `upper_bound_by`: ksearch.rs:174-206. -/
def upperBoundBy (size : Nat) (pg : Nat → Nat) (cmp : Nat → Ordering) : Nat := upperLoop pg cmp 0 size

/-- Loop of `lower_bound_linear_by`: ksearch.rs:225-245, from position `i`, `n` positions left. -/
def lowerLinLoop (pg : Nat → Nat) (cmp : Nat → Ordering) (i : Nat) : Nat → Pos
  | 0 => Pos.notFound i
  | n + 1 =>
    match cmp (pg i) with
    | .lt => Pos.notFound i
    | .eq => Pos.found i (pg i)
    | .gt => lowerLinLoop pg cmp (i + 1) n

/-- `lower_bound_linear_by`: ksearch.rs:217-246. -/
def lowerBoundLinearBy (size : Nat) (pg : Nat → Nat) (cmp : Nat → Ordering) : Pos :=
  lowerLinLoop pg cmp 0 size

/-- Loop of `upper_bound_linear_by`: ksearch.rs:260-277. -/
def upperLinLoop (pg : Nat → Nat) (cmp : Nat → Ordering) (i : Nat) : Nat → Nat
  | 0 => i
  | n + 1 =>
    match cmp (pg i) with
    | .lt => i
    | .eq => i + 1
    | .gt => upperLinLoop pg cmp (i + 1) n

/-- `upper_bound_linear_by`: ksearch.rs:252-278. -/
def upperBoundLinearBy (size : Nat) (pg : Nat → Nat) (cmp : Nat → Ordering) : Nat :=
  upperLinLoop pg cmp 0 size

/-- `upper_bound_internode`: ksearch.rs:303-317 (identity permuter of the node's width). -/
def upperBoundInternode (W : Nat) (t : Nat) (nkeys : Nat) (ikey : Nat → Nat) : Nat :=
  upperBoundBy nkeys (Perm.get 4 (Perm.makeSorted64 W nkeys)) fun s => compare t (ikey s)

/-- `upper_bound_internode_direct`: ksearch.rs:323-351 and
`upper_bound_internode_generic`: ksearch.rs:365-393. -/
def upperBoundDirect (t : Nat) (nkeys : Nat) (ikey : Nat → Nat) : Nat :=
  upperLoop id (fun s => compare t (ikey s)) 0 nkeys

end Verif.KSearch
