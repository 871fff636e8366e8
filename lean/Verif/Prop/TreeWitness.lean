import Verif.Model.Tree
/-!
# Histories on which the tree does not behave as a map

The histories below are concrete insert sequences run through the model of `insert` and `get`; the kernel evaluates them.
They refute C03 (and with it C06) and C01, C02, C05 in general.  The positive theorems (`Prop/Tree.lean`) hold for all
histories whose keys do not clash, and weaker ones hold for all histories.
-/
namespace Verif.Tree
open Verif.Spec (Bytes)

/-- Run a history of inserts from the empty tree; the list holds the results of the inserts. -/
def runFrom {V : Type} (t : Tree V) : List (Bytes × V) → Except Err (Tree V × List (Option V))
  | [] => .ok (t, [])
  | (k, v) :: h => do
    let (t', o) ← insert t k v
    let (t'', os) ← runFrom t' h
    .ok (t'', o :: os)

/-- What a lookup of `k` after history `h` answers. -/
def lookupAfter {V : Type} (h : List (Bytes × V)) (k : Bytes) : Except Err (Option V) := do
  let (t, _) ← runFrom empty h
  get' t k

/-- What the last insert of the history answered. -/
def lastResult {V : Type} (h : List (Bytes × V)) : Except Err (Option (Option V)) := do
  let (_, os) ← runFrom empty h
  .ok os.getLast?

/-- What `len` answers after the history. -/
def lenAfter {V : Type} (h : List (Bytes × V)) : Except Err Nat := do
  let (t, _) ← runFrom empty h
  .ok (len t)

/-- `Except.ok`-test usable by `decide`. -/
def isOk {α : Type} [DecidableEq α] (x : Except Err α) (a : α) : Bool :=
  match x with
  | .ok b => decide (b = a)
  | .error _ => false

theorem isOk_iff {α : Type} [DecidableEq α] {x : Except Err α} {a : α} : isOk x a = true ↔ x = .ok a := by
  cases x <;> simp [isOk]

/-- `g` followed by `n - 1` zero bytes: for `n = 1..9` these keys share their first 8-byte chunk. -/
def grp (g : UInt8) (n : Nat) : Bytes := g :: List.replicate (n - 1) 0

/-- Four small keys, nine keys with one common chunk, twelve larger keys; the last one splits the full leaf. -/
def lossHistory : List (Bytes × Nat) :=
  ((List.range 4).map fun i => ([10, i.toUInt8 + 1], 1000 + i)) ++
  ((List.range 9).map fun i => (grp 200 (i + 1), 2000 + i)) ++
  ((List.range 12).map fun i => ([201, i.toUInt8 + 1], 3000 + i))

/-- Continues `lossHistory`: the lost key `[200]` is inserted again, then twenty-one other keys. -/
def staleHistory : List (Bytes × Nat) :=
  lossHistory ++ [([200], 9999)] ++
  ((List.range 4).map fun i => ([10, i.toUInt8 + 5], 1004 + i)) ++
  ((List.range 9).map fun i => (grp 100 (i + 1), 4000 + i)) ++
  ((List.range 8).map fun i => ([9, i.toUInt8 + 1], 5000 + i))

set_option maxRecDepth 100000

/-- **C03 is violated.** Before the last insert of `lossHistory` (of another key, `[201, 12]`), the key `[200]` is
readable; after it, it is not.  So are the seven keys `[200, 0]` .. `[200, 0, 0, 0, 0, 0, 0, 0]`. -/
theorem C03_insert_loses_other_keys :
    lookupAfter (lossHistory.take 24) [200] = .ok (some 2000) ∧
    lookupAfter lossHistory [200] = .ok none ∧
    (∀ n, 1 ≤ n → n ≤ 8 → lookupAfter lossHistory (grp 200 n) = .ok none) ∧
    (lossHistory.map (·.1)).Nodup := by
  refine ⟨isOk_iff.1 (by decide +kernel), isOk_iff.1 (by decide +kernel), fun n h1 h2 => ?_, by decide +kernel⟩
  have : ∀ n, n < 9 → 1 ≤ n → isOk (lookupAfter lossHistory (grp 200 n)) none = true := by decide +kernel
  exact isOk_iff.1 (this n (by omega) h1)

/-- **C06 is violated.** Inserting the lost key `[200]` again is reported as new and counted a second time: `len` is 26
although only 25 different keys have ever been inserted. -/
theorem C06_len_counts_key_twice :
    lastResult (lossHistory ++ [([200], 9999)]) = .ok (some none) ∧
    lenAfter (lossHistory ++ [([200], 9999)]) = .ok 26 ∧
    ((lossHistory ++ [([200], 9999)]).map Prod.fst).eraseDups.length = 25 :=
  ⟨isOk_iff.1 (by decide +kernel), isOk_iff.1 (by decide +kernel), by decide +kernel⟩

/-- **C01 is violated.** After `staleHistory`, inserting the key `[200]` with value 7777 succeeds and `get` of that key
immediately afterwards answers 2000, the value of its first insertion long ago. -/
theorem C01_stale_value_after_insert :
    lastResult (staleHistory ++ [([200], 7777)]) = .ok (some (some 9999)) ∧
    lookupAfter (staleHistory ++ [([200], 7777)]) [200] = .ok (some 2000) :=
  ⟨isOk_iff.1 (by decide +kernel), isOk_iff.1 (by decide +kernel)⟩

/-- **C02 is violated.** After `staleHistory`, `get` of `[200]` answers 2000, but inserting it reports 9999 as the
previous value. -/
theorem C02_previous_value_differs_from_get :
    lookupAfter staleHistory [200] = .ok (some 2000) ∧
    lastResult (staleHistory ++ [([200], 7777)]) = .ok (some (some 9999)) :=
  ⟨isOk_iff.1 (by decide +kernel), isOk_iff.1 (by decide +kernel)⟩

/-- **C05 is violated.** `[200]` was inserted with 2000 and later with 9999, and nothing was inserted for it since;
`get` first answers 9999 and then, after inserts of other keys, again 2000. -/
theorem C05_overwritten_value_returns :
    lookupAfter (staleHistory.take 26) [200] = .ok (some 9999) ∧
    (∀ kv ∈ staleHistory.drop 26, kv.1 ≠ [200]) ∧
    lookupAfter staleHistory [200] = .ok (some 2000) :=
  ⟨isOk_iff.1 (by decide +kernel), by decide +kernel, isOk_iff.1 (by decide +kernel)⟩

end Verif.Tree
