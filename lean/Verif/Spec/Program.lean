import Verif.Spec.Map
/-!
Specification vocabulary for programs that use the tree through guards, returned handles and references: the same program
run on an ordinary finite map, where handles and references are just values.
-/
namespace Verif.Spec
variable {V : Type}

/-- One step of a program (or of the collector: `reclaim`). -/
inductive Op (V : Type) where
  /-- take a guard -/
  | enter
  /-- drop guard `g`; the references obtained under it end (they carry its lifetime) -/
  | leave (g : Nat)
  | insert (k : Bytes) (v : V)
  | get (k : Bytes)
  /-- `get_ref` under guard `g` -/
  | getRef (g : Nat) (k : Bytes)
  /-- read through the `i`-th live reference -/
  | useRef (i : Nat)
  /-- read the `i`-th handle held (results of `get` and `insert`) -/
  | useOut (i : Nat)
  /-- drop the `i`-th handle held -/
  | dropOut (i : Nat)
  /-- the collector tries to release the `i`-th retired pointer; the program does not see this -/
  | reclaim (i : Nat)
  | len
  | isEmpty

/-- What the program sees. -/
inductive Ans (V : Type) where
  | unit
  /-- no such guard, handle or reference -/
  | skip
  | val (v : Option V)
  | num (n : Nat)
  | bool (b : Bool)
deriving DecidableEq, Repr

/-- State of a program on a finite map. -/
structure PSt (V : Type) where
  map : FMap V
  guards : List Nat
  nextGuard : Nat
  outs : List V
  refs : List (Nat × V)

def PSt.new : PSt V := ⟨FMap.empty, [], 0, [], []⟩

/-- One step on a finite map. -/
def PSt.step (s : PSt V) : Op V → PSt V × Ans V
  | .enter => ({ s with guards := s.nextGuard :: s.guards, nextGuard := s.nextGuard + 1 }, .unit)
  | .leave g =>
    if g ∈ s.guards then
      ({ s with guards := s.guards.filter (· ≠ g), refs := s.refs.filter (·.1 ≠ g) }, .unit)
    else (s, .skip)
  | .insert k v => ({ s with map := s.map.put k v, outs := (s.map.get k).toList ++ s.outs }, .val (s.map.get k))
  | .get k => ({ s with outs := (s.map.get k).toList ++ s.outs }, .val (s.map.get k))
  | .getRef g k =>
    if g ∈ s.guards then
      ({ s with refs := (s.map.get k).toList.map (fun v => (g, v)) ++ s.refs }, .val (s.map.get k))
    else (s, .skip)
  | .useRef i =>
    match s.refs[i]? with
    | none => (s, .skip)
    | some (_, v) => (s, .val (some v))
  | .useOut i =>
    match s.outs[i]? with
    | none => (s, .skip)
    | some v => (s, .val (some v))
  | .dropOut i =>
    match s.outs[i]? with
    | none => (s, .skip)
    | some _ => ({ s with outs := s.outs.eraseIdx i }, .unit)
  | .reclaim _ => (s, .unit)
  | .len => (s, .num s.map.size)
  | .isEmpty => (s, .bool (s.map.size == 0))

/-- The answers of a finite map to a program. -/
def PSt.run (s : PSt V) : List (Op V) → List (Ans V)
  | [] => []
  | op :: ops => (s.step op).2 :: (s.step op).1.run ops

/-- The inserts of a program. -/
def insertsOf : List (Op V) → History V
  | [] => []
  | .insert k v :: ops => (k, v) :: insertsOf ops
  | _ :: ops => insertsOf ops

/-- Every key passed to an operation has at most 256 bytes. -/
def Op.legal : Op V → Prop
  | .insert k _ => k.length ≤ 256
  | .get k => k.length ≤ 256
  | .getRef _ k => k.length ≤ 256
  | _ => True

/-- Keys of at most 256 bytes, fewer than `2 ^ 64` inserts. -/
structure LegalProg (ops : List (Op V)) : Prop where
  keys : ∀ op, op ∈ ops → op.legal
  len : (insertsOf ops).length < 2 ^ 64

end Verif.Spec
