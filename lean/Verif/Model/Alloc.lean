/-!
# Node allocator

Model of `/repo/src/alloc24.rs:98-255` (`SeizeAllocator24`).  A node is an identity and a kind (leaf or internode).
`freed` records every `drop(Box::from_raw(ptr))` executed.  `defer_retire` puts a node on the collector's list
(`deferred`); the collector frees it later (`reclaim`, modelled as freeing any one deferred node; `seize` itself is
trusted to run each deferred destructor once).  The mutexes make each method atomic.
-/
namespace Verif.Alloc

/-- A node pointer: kind and identity. -/
structure Ptr where
  leaf : Bool
  id : Nat
deriving DecidableEq, Repr

/-- `SeizeAllocator24`: alloc24.rs:98-104, plus the collector's list and the record of frees. -/
structure St where
  leafPtrs : List Ptr
  internodePtrs : List Ptr
  deferred : List Ptr
  freed : List Ptr
deriving Repr

/-- `new`: alloc24.rs:124-129. -/
def St.new : St := ⟨[], [], [], []⟩

/-- `Vec::swap_remove(pos)`: the element at `pos` is replaced by the last one. -/
def swapRemove (l : List Ptr) (pos : Nat) : List Ptr :=
  match l.getLast? with
  | none => l
  | some x => (l.set pos x).dropLast

/-- `alloc_leaf24` / `track_leaf24` (alloc24.rs:152-156, 167-169) and `alloc_internode24` / `track_internode24`
(158-165, 171-173): push on the list of the node's kind. -/
def St.push (s : St) (p : Ptr) : St :=
  if p.leaf then { s with leafPtrs := s.leafPtrs ++ [p] } else { s with internodePtrs := s.internodePtrs ++ [p] }

/-- Removal from one tracking list: alloc24.rs:180-184, 202-206. -/
def untrack (l : List Ptr) (p : Ptr) : List Ptr :=
  match l.findIdx? (· == p) with
  | none => l
  | some pos => swapRemove l pos

/-- `retire_leaf24` / `retire_internode24`: alloc24.rs:175-193, 195-215. -/
def St.retire (s : St) (p : Ptr) : St :=
  if p.leaf then { s with leafPtrs := untrack s.leafPtrs p, deferred := s.deferred ++ [p] }
  else { s with internodePtrs := untrack s.internodePtrs p, deferred := s.deferred ++ [p] }

/-- `teardown_tree24`: alloc24.rs:217-236.  `Drop` (239-255) does the same. -/
def St.teardown (s : St) : St :=
  { s with leafPtrs := [], internodePtrs := [], freed := s.freed ++ s.leafPtrs ++ s.internodePtrs }

/-- The collector runs the first deferred destructor. -/
def St.reclaim (s : St) : St :=
  match s.deferred with
  | [] => s
  | p :: ps => { s with deferred := ps, freed := s.freed ++ [p] }

/-- `Collector::reclaim_all`, called by the tree's `Drop` (tree.rs:241). -/
def St.reclaimAll (s : St) : St := { s with deferred := [], freed := s.freed ++ s.deferred }

/-- Calls to the allocator. -/
inductive Op
  | alloc (p : Ptr)
  | retire (p : Ptr)
  | teardown
  | reclaim
deriving DecidableEq, Repr

def St.step (s : St) : Op → St
  | .alloc p => s.push p
  | .retire p => s.retire p
  | .teardown => s.teardown
  | .reclaim => s.reclaim

def run (s : St) (os : List Op) : St := os.foldl St.step s

/-- The tree's `Drop` (tree.rs:233-246) followed by the allocator's own `Drop` (alloc24.rs:239-255). -/
def St.dropTree (s : St) : St := s.reclaimAll.teardown.teardown

end Verif.Alloc
