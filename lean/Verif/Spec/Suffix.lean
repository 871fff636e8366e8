import Verif.Model.Suffix
/-!
# Specification of suffix storage: a finite map from slots to byte strings
-/
namespace Verif.Spec.Suffix
open Verif.Spec Verif.Suffix

/-- Slot contents. -/
abbrev Map := Nat → Option Bytes

/-- Effect of one call that returned `r` on the map. -/
def step (m : Map) : Op → Bool → Map
  | .tryAssign s bs, true => fun t => if t = s then some bs else m t
  | .tryAssign _ _, false => m
  | .assign s bs _, _ => fun t => if t = s then some bs else m t
  | .clear s, _ => fun t => if t = s then none else m t
  | .compact a _, _ => fun t => if t ∈ a then m t else none
  | .clone _, _ => m

/-- Effect of a sequence of calls with their results. -/
def run (m : Map) : List Op → List Bool → Map
  | o :: os, r :: rs => run (step m o r) os rs
  | _, _ => m

/-- A call within its documented preconditions: slot in range, suffix length fits 16 bits. -/
def Legal (W : Nat) : Op → Prop
  | .tryAssign s bs => s < W ∧ bs.length < 2 ^ 16
  | .assign s bs _ => s < W ∧ bs.length < 2 ^ 16
  | .clear s => s < W
  | .compact _ _ => True
  | .clone _ => True

/-- Bytes a call may add. -/
def cost : Op → Nat
  | .tryAssign _ bs => bs.length
  | .assign _ bs _ => bs.length
  | _ => 0

/-- Bytes a sequence may add. -/
def total (os : List Op) : Nat := (os.map cost).sum

/-- Leaf level: slot contents and key-length codes. -/
structure LMap where
  suf : Map
  klx : Nat → Nat

/-- Effect of one call on a leaf. -/
def lstep (m : LMap) : LOp → LMap
  | .assign s bs _ _ => ⟨fun t => if t = s then some bs else m.suf t, fun t => if t = s then 64 else m.klx t⟩
  | .clear s _ => ⟨fun t => if t = s then none else m.suf t, fun t => if t = s then 0 else m.klx t⟩
  | .compact o e _ _ => ⟨fun t => if t ∈ o ∧ some t ≠ e then m.suf t else none, m.klx⟩
  | .setKlx s v => ⟨m.suf, fun t => if t = s then v else m.klx t⟩

/-- Effect of a sequence of calls on a leaf. -/
def lrun (m : LMap) : List LOp → LMap
  | [] => m
  | o :: os => lrun (lstep m o) os

/-- What `ksuf(slot)` should return. -/
def LMap.read (m : LMap) (s : Nat) : Option Bytes := if m.klx s = 64 then m.suf s else none

/-- Preconditions of a leaf call. -/
def LLegal : LOp → Prop
  | .assign s bs _ _ => s < 24 ∧ bs.length < 2 ^ 16
  | .clear s _ => s < 24
  | .compact _ _ _ _ => True
  | .setKlx s _ => s < 24

/-- Bytes a leaf call may add. -/
def lcost : LOp → Nat
  | .assign _ bs _ _ => bs.length
  | _ => 0

/-- Bytes a sequence of leaf calls may add. -/
def ltotal (os : List LOp) : Nat := (os.map lcost).sum

end Verif.Spec.Suffix
