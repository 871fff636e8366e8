import Verif.Model.Ops
/-!
# Calls of `get` and `insert`, with the two wrong turns of the code

`Model/Ops.lean` leaves out two things that the code does: it splits a leaf between two equal slices if the split point is there
(finding 1 in DESIGN.md), and an insert that meets more than 128 siblings in a sublayer starts again at the root of the whole tree, with
the key shifted as it is (finding 5).  Here they are part of the machine.
-/
namespace Verif.Ops
open Verif.Internode (upd)
open Verif.Perm (size get)
open Verif.Whole (isLocked)
variable {V : Type}

/-- The two slices at position `sp` of a leaf are not in order, so that no border is between them. -/
def equalAt (b : Tree.Leaf V) (sp : Nat) : Bool := !Nat.blt (b.ikey (get 5 b.perm (sp - 1))) (b.ikey (get 5 b.perm sp))

/-- The holder of `x` allocates leaf `y` and freezes the permutation, to split before position `sp`, whatever is there:
leaf24.rs:1246-1283. -/
def freezeAny (c : Chain.St V) (x sp y : Nat) : Chain.St V :=
  match c.hold x with
  | .marked lv =>
    let raw := (c.leaf x).b.perm
    { c with
      leaf := upd (upd c.leaf y ⟨Tree.emptyLeaf, NV.newForSplit (c.leaf x).word, 0, false, (c.leaf x).b.ikey (get 5 raw sp)⟩)
        x { c.leaf x with b := { (c.leaf x).b with perm := Freeze.freezeRaw raw } }
      hold := upd (upd c.hold y .newborn) x (.take lv raw sp y sp)
      used := upd c.used y true }
  | _ => c

/-- Thread `i` is about to split its leaf between two equal slices. -/
def parting (s : St V) (i : Nat) : Bool :=
  match s.ph i with
  | .freeze L _ x sp => equalAt ((s.w.f.layer L).leaf x).b sp
  | _ => false

/-- Thread `i` has met more than 128 siblings in a sublayer: generic.rs:1456-1476, 1588-1591. -/
def lost (s : St V) (i : Nat) : Bool :=
  match s.ph i with
  | .down L _ =>
    match (s.w.side L).ix.pc i, (s.w.side L).ins i with
    | .sect _ _ _, .adv 0 _ => L != 0
    | _, _ => false
  | _ => false

/-- A step of thread `i` that `Model/Ops.lean` does not have. -/
def detour (s : St V) (i y : Nat) : St V :=
  match s.ph i with
  | .freeze L m x sp =>
    if (s.w.f.layer L).used y = false ∧ y ≠ 0 then
      { s with w := { s.w with f := { s.w.f with layer := upd s.w.f.layer L (freezeAny (s.w.f.layer L) x sp y) } }
               ph := upd s.ph i (.part L m x y) }
    else s
  | .down L m =>
    match (s.w.side L).ix.pc i with
    | .sect o _ _ =>
      { s with w := { s.w with side := upd s.w.side L ((s.w.side L).goto i (.done o none)) }
               ph := upd s.ph i (.enter 0 m) }
    | _ => s
  | _ => s

/-- The effect of what happens. -/
def actAll (fixed strict : Bool) (s : St V) : Act V → St V
  | .call i o => act fixed strict s (.call i o)
  | .run i y qs => if parting s i || lost s i then detour s i y else act fixed strict s (.run i y qs)

end Verif.Ops
