import Verif.Spec.Bytes
/-!
Specification vocabulary for the tree as a map: what an ordinary map fed a history of inserts holds.
-/
namespace Verif.Spec
variable {V : Type}

/-- A history of inserts, oldest first. -/
abbrev History (V : Type) := List (Bytes × V)

/-- What an ordinary map holds under `k` after the history: the value of the last insert whose key is exactly `k`. -/
def mapAfter (h : History V) (k : Bytes) : Option V := (h.reverse.find? fun p => p.1 == k).map (·.2)

/-- The number of different keys inserted. -/
def distinctKeys (h : History V) : Nat := (h.map (·.1)).eraseDups.length

/-- Two keys clash if they agree on the first `8n` bytes and on the zero-padded next 8-byte chunk, but have a different
number of bytes left there (more than eight counting as nine): one of them ends inside that chunk. -/
def Clash (a b : Bytes) : Prop :=
  ∃ n, 8 * n ≤ a.length ∧ 8 * n ≤ b.length ∧ a.take (8 * n) = b.take (8 * n) ∧
    chunk (a.drop (8 * n)) = chunk (b.drop (8 * n)) ∧ lenClass (a.drop (8 * n)) ≠ lenClass (b.drop (8 * n))

/-- No two keys of the set clash. -/
def NoClash (K : Bytes → Prop) : Prop := ∀ a b, K a → K b → ¬ Clash a b

/-- The keys of a history. -/
def keysOf (h : History V) : Bytes → Prop := fun k => ∃ v, (k, v) ∈ h

/-- Every key has at most 256 bytes, and the history is shorter than `2 ^ 64`.  (The bound on the length is not a bound on
the exploration: the code's own counter is 64 bits wide, and split propagation gives up above 64 levels.) -/
structure Legal (h : History V) : Prop where
  keys : ∀ p, p ∈ h → p.1.length ≤ 256
  len : h.length < 2 ^ 64

/-! ## Mixed histories: the calls of the API and their results -/

/-- A call. -/
inductive Call (V : Type) where
  | insert (k : Bytes) (v : V)
  | get (k : Bytes)
  | len
  | isEmpty

/-- What a call returned. -/
inductive Reply (V : Type) where
  | value (o : Option V)
  | count (n : Nat)
  | flag (b : Bool)
deriving DecidableEq

/-- A finite map: the binding of every key and the number of keys bound. -/
structure FMap (V : Type) where
  get : Bytes → Option V
  size : Nat

def FMap.empty : FMap V := ⟨fun _ => none, 0⟩

/-- Bind `k` to `v`. -/
def FMap.put (m : FMap V) (k : Bytes) (v : V) : FMap V :=
  ⟨fun k' => if k' = k then some v else m.get k', if (m.get k).isNone then m.size + 1 else m.size⟩

/-- The replies of a finite map. -/
def FMap.run (m : FMap V) : List (Call V) → List (Reply V)
  | [] => []
  | .insert k v :: cs => .value (m.get k) :: (m.put k v).run cs
  | .get k :: cs => .value (m.get k) :: m.run cs
  | .len :: cs => .count m.size :: m.run cs
  | .isEmpty :: cs => .flag (m.size == 0) :: m.run cs

/-- The inserts among the calls. -/
def inserts : List (Call V) → History V
  | [] => []
  | .insert k v :: cs => (k, v) :: inserts cs
  | .get _ :: cs => inserts cs
  | .len :: cs => inserts cs
  | .isEmpty :: cs => inserts cs

/-- The keys looked up by the calls. -/
def lookups : List (Call V) → List Bytes
  | [] => []
  | .insert _ _ :: cs => lookups cs
  | .get k :: cs => k :: lookups cs
  | .len :: cs => lookups cs
  | .isEmpty :: cs => lookups cs

end Verif.Spec
