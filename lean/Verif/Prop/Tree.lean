import Verif.Proof.TreeNeat
set_option linter.unusedSimpArgs false
/-!
# The tree as a map (C01–C10, C28)

Statements are about histories of API calls on the empty tree: `runFrom`, `lookupAfter`, `lastResult`, `lenAfter`
(`Prop/TreeWitness.lean`) and `exec` below run the model; the specification is `Spec/Map.lean`.
-/
namespace Verif.Tree
open Verif.Spec
variable {V : Type}

/-- Run a sequence of API calls on a tree and collect the replies. -/
def exec (t : Tree V) : List (Call V) → Except Err (List (Reply V))
  | [] => .ok []
  | .insert k v :: cs => do
    let (t', o) ← insert t k v
    let rs ← exec t' cs
    .ok (.value o :: rs)
  | .get k :: cs => do
    let o ← get' t k
    let rs ← exec t cs
    .ok (.value o :: rs)
  | .len :: cs => do
    let rs ← exec t cs
    .ok (.count (len t) :: rs)
  | .isEmpty :: cs => do
    let b ← isEmpty t
    let rs ← exec t cs
    .ok (.flag b :: rs)

theorem fmap_after (h : History V) (m : FMap V) (h1 : ∀ k, m.get k = mapAfter h k) (h2 : m.size = distinctKeys h) (k : Bytes)
    (v : V) : (∀ k', (m.put k v).get k' = mapAfter (h ++ [(k, v)]) k') ∧ (m.put k v).size = distinctKeys (h ++ [(k, v)]) := by
  constructor
  · intro k'
    rw [mapAfter_snoc]
    simp [FMap.put, h1]
  · rw [distinctKeys_snoc]
    simp only [FMap.put, h1, h2]
    by_cases e : k ∈ h.map (·.1)
    · obtain ⟨v', e'⟩ := mapAfter_isSome.2 e
      rw [if_pos e, e']
      simp
    · have : mapAfter h k = none := by
        cases c : mapAfter h k with
        | none => rfl
        | some v' => exact absurd (mapAfter_isSome.1 ⟨v', c⟩) e
      rw [if_neg e, this]
      simp

theorem exec_exact (K : Bytes → Prop) (hK : NoClash K) : ∀ (cs : List (Call V)) (h : History V) (t : Tree V) (G : Ghost) (m : FMap V),
    Reach h t G → Exact K h t G → (∀ k, m.get k = mapAfter h k) → m.size = distinctKeys h →
    h.length + (inserts cs).length < 2 ^ 64 → (∀ p, p ∈ inserts cs → K p.1 ∧ p.1.length ≤ 256) →
    (∀ k, k ∈ lookups cs → k.length ≤ 256) → exec t cs = .ok (m.run cs) := by
  intro cs
  induction cs with
  | nil => intros; rfl
  | cons c cs ih =>
    intro h t G m R S h1 h2 hlen hins hlk
    cases c with
    | insert k v =>
      have hk := hins (k, v) (by simp [inserts])
      have hl : h.length + ((inserts cs).length + 1) < 2 ^ 64 := hlen
      obtain ⟨t', r, G', g1, g2, -, g3⟩ := history_step K R (by omega) hk.2 v
      obtain ⟨g4, g5⟩ := g3 hK hk.1 S
      obtain ⟨f1, f2⟩ := fmap_after h m h1 h2 k v
      have := ih (h ++ [(k, v)]) t' G' (m.put k v) g2 g4 f1 f2 (by rw [List.length_append, List.length_singleton]; omega)
        (fun p hp => hins p (by simp [inserts, hp])) hlk
      simp [exec, FMap.run, g1, this, bind, Except.bind, g5, h1]
    | get k =>
      have := ih h t G m R S h1 h2 hlen hins (fun k hk => hlk k (by simp [lookups, hk]))
      have hg := S.get R hK (hlk k (by simp [lookups]))
      simp [exec, FMap.run, hg, this, bind, Except.bind, h1]
    | len =>
      have := ih h t G m R S h1 h2 hlen hins hlk
      simp [exec, FMap.run, this, bind, Except.bind, len, S.count, h2]
    | isEmpty =>
      have := ih h t G m R S h1 h2 hlen hins hlk
      have e : h.isEmpty = (distinctKeys h == 0) := by
        have := distinctKeys_eq_zero (h := h)
        cases h with
        | nil => rfl
        | cons a b =>
          have : ¬ distinctKeys (a :: b) = 0 := fun c => by simpa using this.1 c
          simp [this]
      simp [exec, FMap.run, this, bind, Except.bind, R.isEmpty, h2, e]

theorem exec_runs : ∀ (cs : List (Call V)) (h : History V) (t : Tree V) (G : Ghost), Reach h t G →
    h.length + (inserts cs).length < 2 ^ 64 → (∀ p, p ∈ inserts cs → p.1.length ≤ 256) →
    (∀ k, k ∈ lookups cs → k.length ≤ 256) → ∃ rs, exec t cs = .ok rs ∧ rs.length = cs.length := by
  intro cs
  induction cs with
  | nil => intros; exact ⟨[], rfl, rfl⟩
  | cons c cs ih =>
    intro h t G R hlen hins hlk
    cases c with
    | insert k v =>
      have hk := hins (k, v) (by simp [inserts])
      have hl : h.length + ((inserts cs).length + 1) < 2 ^ 64 := hlen
      obtain ⟨t', r, G', g1, g2, -, -⟩ := history_step (fun _ => True) R (by omega) hk v
      obtain ⟨rs, g3, g4⟩ := ih (h ++ [(k, v)]) t' G' g2 (by rw [List.length_append, List.length_singleton]; omega)
        (fun p hp => hins p (by simp [inserts, hp])) hlk
      exact ⟨.value r :: rs, by simp [exec, g1, g3, bind, Except.bind], by simp [g4]⟩
    | get k =>
      obtain ⟨rs, g3, g4⟩ := ih h t G R hlen hins (fun k hk => hlk k (by simp [lookups, hk]))
      obtain ⟨r, h1, -⟩ := get_ok R.inv k (hlk k (by simp [lookups]))
      exact ⟨.value r :: rs, by simp [exec, h1, g3, bind, Except.bind], by simp [g4]⟩
    | len =>
      obtain ⟨rs, g3, g4⟩ := ih h t G R hlen hins hlk
      exact ⟨.count (len t) :: rs, by simp [exec, g3, bind, Except.bind], by simp [g4]⟩
    | isEmpty =>
      obtain ⟨rs, g3, g4⟩ := ih h t G R hlen hins hlk
      exact ⟨.flag h.isEmpty :: rs, by simp [exec, g3, bind, Except.bind, R.isEmpty], by simp [g4]⟩

theorem lenClass_of_length {a b : Bytes} (h : a.length = b.length) : lenClass a = lenClass b := by
  simp [lenClass, h]

/-! ## When keys do not clash -/

/-- Keys of one length never clash. -/
theorem noClash_of_length (n : Nat) (K : Bytes → Prop) (h : ∀ k, K k → k.length = n) : NoClash K := by
  rintro a b ha hb ⟨m, _, _, _, _, h5⟩
  exact h5 (lenClass_of_length (by simp [h a ha, h b hb]))

theorem padTake_nulFree (n : Nat) (a b : Bytes) (ha : 0 ∉ a) (hb : 0 ∉ b) (h : padTake n a = padTake n b) :
    min a.length n = min b.length n := by
  induction n generalizing a b with
  | zero => simp
  | succ n ih =>
    cases a with
    | nil =>
      cases b with
      | nil => rfl
      | cons y ys => simp [padTake] at h; simp [← h.1] at hb
    | cons x xs =>
      cases b with
      | nil => simp [padTake] at h; simp [h.1] at ha
      | cons y ys =>
        simp [padTake] at h
        have := ih xs ys (fun c => ha (by simp [c])) (fun c => hb (by simp [c])) h.2
        simp only [List.length_cons]; omega

/-- Keys without zero bytes clash only if one of them, of a length divisible by eight, is a proper prefix of another. -/
theorem noClash_of_nulFree (K : Bytes → Prop) (h0 : ∀ k, K k → 0 ∉ k)
    (hp : ∀ a b, K a → K b → a <+: b → a.length % 8 = 0 → a ≠ [] → a = b) : NoClash K := by
  have main : ∀ a b, K a → K b → ∀ n, 8 * n ≤ a.length → 8 * n ≤ b.length → a.take (8 * n) = b.take (8 * n) →
      chunk (a.drop (8 * n)) = chunk (b.drop (8 * n)) → lenClass (a.drop (8 * n)) < lenClass (b.drop (8 * n)) → False := by
    intro a b ha hb n h1 h2 h3 h4 h5
    have e := beNat_inj _ _ (by simp) h4
    have := padTake_nulFree 8 _ _ (fun c => h0 a ha (List.mem_of_mem_drop c)) (fun c => h0 b hb (List.mem_of_mem_drop c)) e
    unfold lenClass at h5
    have l1 : (a.drop (8 * n)).length = a.length - 8 * n := by simp
    have l2 : (b.drop (8 * n)).length = b.length - 8 * n := by simp
    have la : a.length = 8 * n + 8 := by omega
    have lb : 8 * n + 8 < b.length := by omega
    have ht := take_eq_of_chunk_eq _ _ (by omega) (by omega) h4
    have : a = b.take (8 * n + 8) := by
      rw [List.take_add, ← h3, ← ht, List.take_of_length_le (l := a.drop (8 * n)) (by omega), List.take_append_drop]
    have hab := hp a b ha hb (by rw [this]; exact List.take_prefix _ _) (by omega) (by intro c; simp [c] at la)
    rw [hab] at la; omega
  rintro a b ha hb ⟨n, h1, h2, h3, h4, h5⟩
  rcases Nat.lt_or_gt_of_ne h5 with c | c
  · exact main a b ha hb n h1 h2 h3 h4 c
  · exact main b a hb ha n h2 h1 h3.symm h4.symm c

/-- **C04.** A sequence of `insert`, `get`, `len` and `is_empty` calls on an empty tree, in which no two inserted keys clash,
gets exactly the replies a finite map gives.  (The keys looked up are arbitrary legal keys.) -/
theorem C04_refines_finite_map (cs : List (Call V)) (hl : Legal (inserts cs)) (hg : ∀ k, k ∈ lookups cs → k.length ≤ 256)
    (hc : NoClash (keysOf (inserts cs))) : exec empty cs = .ok (FMap.empty.run cs) :=
  exec_exact (keysOf (inserts cs)) hc cs [] empty G0 FMap.empty reach_empty (exact_empty _) (fun _ => rfl) rfl
    (by simpa using hl.len) (fun p hp => ⟨⟨p.2, hp⟩, hl.keys p hp⟩) hg

/-- **C08.** Calls with legal keys, clashing or not, all return: no `insert` answers with an error, and no call panics,
waits for its own lock, follows a null or freed pointer, takes a sublayer pointer for a value or the reverse, or loops
forever (each of these is an `Err` in the model). -/
theorem C08_calls_never_fail (cs : List (Call V)) (hl : Legal (inserts cs)) (hg : ∀ k, k ∈ lookups cs → k.length ≤ 256) :
    ∃ rs, exec empty cs = .ok rs ∧ rs.length = cs.length :=
  exec_runs cs [] empty G0 reach_empty (by simpa using hl.len) hl.keys hg

/-- **C07.** `is_empty` is true exactly when no insert has happened, whatever the keys. -/
theorem C07_is_empty_iff_no_insert (h : History V) (hl : Legal h) :
    ∃ t os, runFrom empty h = .ok (t, os) ∧ isEmpty t = .ok h.isEmpty := by
  obtain ⟨t, os, G, h1, R, -⟩ := history_ok (fun _ => False) h hl
  exact ⟨t, os, h1, R.isEmpty⟩

/-- **C28.** After every history of inserts no node is locked (the node numbers below `fresh` are the allocated ones). -/
theorem C28_no_lock_left (h : History V) (hl : Legal h) :
    ∃ t os, runFrom empty h = .ok (t, os) ∧ ∀ x, x < t.fresh → t.kind x ≠ none ∧ t.locked x = false := by
  obtain ⟨t, os, G, h1, R, -⟩ := history_ok (fun _ => False) h hl
  refine ⟨t, os, h1, fun x hx => ⟨R.inv.kind x hx, ?_⟩⟩
  cases hq : t.locked x with
  | false => rfl
  | true => exact ((R.inv.locks x hx).1 hq).elim

/-- **C10.** After any legal history, `insert` and `get` panic exactly for keys longer than 256 bytes; and for those keys
the answer does not depend on the tree at all. -/
theorem C10_only_long_keys_panic (h : History V) (hl : Legal h) (k : Bytes) (v : V) :
    ∃ t os, runFrom empty h = .ok (t, os) ∧
      (insert t k v = .error .panic ↔ 256 < k.length) ∧ (get' t k = .error .panic ↔ 256 < k.length) ∧
      (256 < k.length → ∀ t' : Tree V, insert t' k v = .error .panic ∧ get' t' k = .error .panic) := by
  obtain ⟨t, os, G, h1, R, -⟩ := history_ok (fun _ => False) h hl
  have hlong : 256 < k.length → ∀ t' : Tree V, insert t' k v = .error .panic ∧ get' t' k = .error .panic := by
    intro hk t'
    have : Key.new? k = none := by unfold Key.new? maxKeyLength; rw [if_neg (by omega)]
    simp [insert, get', this]
  refine ⟨t, os, h1, ⟨?_, fun hk => (hlong hk t).1⟩, ⟨?_, fun hk => (hlong hk t).2⟩, hlong⟩
  · intro e
    by_contra c
    obtain ⟨t', r, G', g1, -⟩ := history_step (fun _ => True) R hl.len (k := k) (by omega) v
    rw [g1] at e; cases e
  · intro e
    by_contra c
    obtain ⟨r, g1, -⟩ := get_ok R.inv k (by omega)
    rw [g1] at e; cases e

/-! ## C01, C02, C03, C05, C06: true for keys that do not clash, refuted in general by `Prop/TreeWitness.lean` -/

theorem lookup_exact (h : History V) (hl : Legal h) (hc : NoClash (keysOf h)) {k : Bytes} (hk : k.length ≤ 256) :
    lookupAfter h k = .ok (mapAfter h k) := by
  obtain ⟨t, os, G, h1, R, S⟩ := history_ok (keysOf h) h hl
  have := (S hc (fun p hp => ⟨p.2, hp⟩)).get R hc hk
  simp [lookupAfter, h1, bind, Except.bind, this]

theorem keysOf_snoc {h : History V} {k : Bytes} {v : V} (hc : NoClash (keysOf (h ++ [(k, v)]))) : NoClash (keysOf h) := by
  rintro a b ⟨va, ha⟩ ⟨vb, hb⟩
  exact hc a b ⟨va, List.mem_append_left _ ha⟩ ⟨vb, List.mem_append_left _ hb⟩

theorem legal_snoc {h : History V} {k : Bytes} {v : V} (hl : Legal (h ++ [(k, v)])) : Legal h ∧ k.length ≤ 256 :=
  ⟨⟨fun p hp => hl.keys p (by simp [hp]), by have := hl.len; simp at this; omega⟩, hl.keys (k, v) (by simp)⟩

/-- **C01, partial.** After `insert(k, v)`, `get(k)` answers `v`.  Missing: histories with clashing keys, for which it is
false (`C01_stale_value_after_insert`). -/
theorem C01_get_after_insert_partial (h : History V) (k : Bytes) (v : V) (hl : Legal (h ++ [(k, v)]))
    (hc : NoClash (keysOf (h ++ [(k, v)]))) : lookupAfter (h ++ [(k, v)]) k = .ok (some v) := by
  rw [lookup_exact _ hl hc (legal_snoc hl).2, mapAfter_snoc, if_pos rfl]

/-- **C02, partial.** `insert(k, v)` answers what `get(k)` would have answered just before.  Missing: histories with clashing
keys, for which it is false (`C02_previous_value_differs_from_get`). -/
theorem C02_insert_returns_previous_partial (h : History V) (k : Bytes) (v : V) (hl : Legal (h ++ [(k, v)]))
    (hc : NoClash (keysOf (h ++ [(k, v)]))) :
    ∃ o, lookupAfter h k = .ok o ∧ lastResult (h ++ [(k, v)]) = .ok (some o) := by
  obtain ⟨t, os, G, h1, R, S⟩ := history_ok (keysOf (h ++ [(k, v)])) h (legal_snoc hl).1
  have S := S hc (fun p hp => ⟨p.2, List.mem_append_left _ hp⟩)
  obtain ⟨t', r, G', g1, -, -, g3⟩ := history_step _ R (legal_snoc hl).1.len (legal_snoc hl).2 v
  obtain ⟨-, g5⟩ := g3 hc ⟨v, by simp⟩ S
  refine ⟨mapAfter h k, lookup_exact h (legal_snoc hl).1 (keysOf_snoc hc) (legal_snoc hl).2, ?_⟩
  simp [lastResult, runFrom_snoc _ _ _ _ h1 g1, bind, Except.bind, g5]

/-- Unconditional part of C02: whatever an insert reports as previous value was inserted under exactly this key. -/
theorem C02_previous_value_is_genuine_partial (h : History V) (k : Bytes) (v : V) (hl : Legal (h ++ [(k, v)])) :
    ∃ r, lastResult (h ++ [(k, v)]) = .ok (some r) ∧ ∀ o, r = some o → (k, o) ∈ h := by
  obtain ⟨t, os, G, h1, R, -⟩ := history_ok (fun _ => False) h (legal_snoc hl).1
  obtain ⟨t', r, G', g1, -, g2, -⟩ := history_step (fun _ => False) R (legal_snoc hl).1.len (legal_snoc hl).2 v
  exact ⟨r, by simp [lastResult, runFrom_snoc _ _ _ _ h1 g1, bind, Except.bind], g2⟩

/-- **C03, partial.** `insert(k, v)` does not change what `get(k')` answers for another key, inserted or not.  Missing:
histories with clashing keys, for which it is false (`C03_insert_loses_other_keys`). -/
theorem C03_other_keys_unchanged_partial (h : History V) (k : Bytes) (v : V) (hl : Legal (h ++ [(k, v)]))
    (hc : NoClash (keysOf (h ++ [(k, v)]))) (k' : Bytes) (hk' : k'.length ≤ 256) (hne : k' ≠ k) :
    ∃ o, lookupAfter h k' = .ok o ∧ lookupAfter (h ++ [(k, v)]) k' = .ok o := by
  refine ⟨mapAfter h k', lookup_exact h (legal_snoc hl).1 (keysOf_snoc hc) hk', ?_⟩
  rw [lookup_exact _ hl hc hk', mapAfter_snoc, if_neg hne]

/-- **C05, partial.** A value answered by `get(k)` is the one of the latest insert under exactly `k`.  Missing: histories
with clashing keys, for which it is false (`C05_overwritten_value_returns`). -/
theorem C05_get_is_latest_partial (h : History V) (hl : Legal h) (hc : NoClash (keysOf h)) (k : Bytes) (hk : k.length ≤ 256)
    (v : V) (hv : lookupAfter h k = .ok (some v)) : mapAfter h k = some v := by
  rw [lookup_exact h hl hc hk] at hv
  exact Except.ok.inj hv

/-- Unconditional part of C05: for every history, clashing keys included, a value answered by `get(k)` was inserted under
exactly the key `k`. -/
theorem C05_get_is_genuine_partial (h : History V) (hl : Legal h) (k : Bytes) (hk : k.length ≤ 256) :
    ∃ r, lookupAfter h k = .ok r ∧ ∀ v, r = some v → (k, v) ∈ h := by
  obtain ⟨t, os, G, h1, R, -⟩ := history_ok (fun _ => False) h hl
  obtain ⟨r, g1, g2⟩ := get_ok R.inv k hk
  exact ⟨r, by simp [lookupAfter, h1, bind, Except.bind, g1], fun v hv => R.sound k v (g2 v hv)⟩

/-- **C06, partial.** `len` is the number of distinct keys inserted.  Missing: histories with clashing keys, for which it is
false (`C06_len_counts_key_twice`). -/
theorem C06_len_is_distinct_keys_partial (h : History V) (hl : Legal h) (hc : NoClash (keysOf h)) :
    lenAfter h = .ok (distinctKeys h) := by
  obtain ⟨t, os, G, h1, R, S⟩ := history_ok (keysOf h) h hl
  have := (S hc (fun p hp => ⟨p.2, hp⟩)).count
  simp [lenAfter, h1, bind, Except.bind, len, this]

/-- Unconditional part of C06: `len` is never below the number of distinct keys and never above the number of inserts. -/
theorem C06_len_bounds_partial (h : History V) (hl : Legal h) :
    ∃ n, lenAfter h = .ok n ∧ distinctKeys h ≤ n ∧ n ≤ h.length := by
  obtain ⟨t, os, G, h1, R, -⟩ := history_ok (fun _ => False) h hl
  exact ⟨len t, by simp [lenAfter, h1, bind, Except.bind], R.lo, R.hi⟩

/-! ## The same for all keys, as long as no split has separated equal chunks

Keys that clash do harm only once a leaf is split between two entries with equal chunks.  Then, and only then, two neighbouring leaves
hold the same chunk (`Apart` fails), and it stays so for ever.  Until then C01, C02, C03, C05 and C06 hold whatever the keys. -/

/-- The history runs, and no two neighbouring leaves of the tree it leads to hold the same chunk. -/
def ApartAfter (h : History V) : Prop := ∃ t os, runFrom empty h = .ok (t, os) ∧ Apart t

/-- Once two neighbouring leaves hold the same chunk, they do so for ever: a history after which they do not has none before either. -/
theorem C01_apart_before (h : History V) (k : Bytes) (v : V) (hl : Legal (h ++ [(k, v)])) (ha : ApartAfter (h ++ [(k, v)])) :
    ApartAfter h := by
  obtain ⟨t, os, G, h1, R, -⟩ := neat_ok h (legal_snoc hl).1
  obtain ⟨t', r, G', g1, R', g3, -⟩ := neat_step R (legal_snoc hl).1.len (legal_snoc hl).2 v
  obtain ⟨t2, os2, e1, e2⟩ := ha
  rw [runFrom_snoc _ _ _ _ h1 g1] at e1
  cases e1
  exact ⟨t, os, h1, (apart_iff R.inv).2 (g3 ((apart_iff R'.inv).1 e2))⟩

/-- Keys that do not clash keep neighbouring leaves apart. -/
theorem C01_apart_without_clashes (h : History V) (hl : Legal h) (hc : NoClash (keysOf h)) : ApartAfter h := by
  obtain ⟨t, os, G, h1, R, S⟩ := history_ok (keysOf h) h hl
  exact ⟨t, os, h1, (apart_iff R.inv).2 fun x i hk hx => ((S hc (fun p hp => ⟨p.2, hp⟩)).strong.strict x i hk hx).hi⟩

theorem lookup_apart (h : History V) (hl : Legal h) (ha : ApartAfter h) {k : Bytes} (hk : k.length ≤ 256) :
    lookupAfter h k = .ok (mapAfter h k) := by
  obtain ⟨t, os, G, h1, R, S⟩ := neat_ok h hl
  obtain ⟨t2, os2, e1, e2⟩ := ha
  rw [h1] at e1; cases e1
  have := (S ((apart_iff R.inv).1 e2)).get R hk
  simp [lookupAfter, h1, bind, Except.bind, this]

/-- **C01, partial**, for any keys: after `insert(k, v)`, `get(k)` answers `v`.  Missing: trees in which a split has separated equal
chunks. -/
theorem C01_get_after_insert_apart_partial (h : History V) (k : Bytes) (v : V) (hl : Legal (h ++ [(k, v)]))
    (ha : ApartAfter (h ++ [(k, v)])) : lookupAfter (h ++ [(k, v)]) k = .ok (some v) := by
  rw [lookup_apart _ hl ha (legal_snoc hl).2, mapAfter_snoc, if_pos rfl]

/-- **C02, partial**, for any keys: `insert(k, v)` answers what `get(k)` would have answered just before.  Missing: trees in which a
split has separated equal chunks. -/
theorem C02_insert_returns_previous_apart_partial (h : History V) (k : Bytes) (v : V) (hl : Legal (h ++ [(k, v)]))
    (ha : ApartAfter (h ++ [(k, v)])) :
    ∃ o, lookupAfter h k = .ok o ∧ lastResult (h ++ [(k, v)]) = .ok (some o) := by
  obtain ⟨t, os, G, h1, R, S⟩ := neat_ok h (legal_snoc hl).1
  obtain ⟨t', r, G', g1, R', g3, g4⟩ := neat_step R (legal_snoc hl).1.len (legal_snoc hl).2 v
  refine ⟨mapAfter h k, lookup_apart h (legal_snoc hl).1 (C01_apart_before h k v hl ha) (legal_snoc hl).2, ?_⟩
  obtain ⟨t2, os2, e1, e2⟩ := ha
  rw [runFrom_snoc _ _ _ _ h1 g1] at e1
  cases e1
  have hs := (apart_iff R'.inv).1 e2
  obtain ⟨-, g5⟩ := g4 hs (S (g3 hs))
  simp [lastResult, runFrom_snoc _ _ _ _ h1 g1, bind, Except.bind, g5]

/-- **C03, partial**, for any keys: `insert(k, v)` does not change what `get(k')` answers for another key, inserted or not.  Missing:
trees in which a split has separated equal chunks. -/
theorem C03_other_keys_unchanged_apart_partial (h : History V) (k : Bytes) (v : V) (hl : Legal (h ++ [(k, v)]))
    (ha : ApartAfter (h ++ [(k, v)])) (k' : Bytes) (hk' : k'.length ≤ 256) (hne : k' ≠ k) :
    ∃ o, lookupAfter h k' = .ok o ∧ lookupAfter (h ++ [(k, v)]) k' = .ok o := by
  refine ⟨mapAfter h k', lookup_apart h (legal_snoc hl).1 (C01_apart_before h k v hl ha) hk', ?_⟩
  rw [lookup_apart _ hl ha hk', mapAfter_snoc, if_neg hne]

/-- **C05, partial**, for any keys: `get(k)` answers exactly the value of the latest insert under `k`.  Missing: trees in which a split
has separated equal chunks. -/
theorem C05_get_is_latest_apart_partial (h : History V) (hl : Legal h) (ha : ApartAfter h) (k : Bytes) (hk : k.length ≤ 256) :
    lookupAfter h k = .ok (mapAfter h k) := lookup_apart h hl ha hk

/-- **C06, partial**, for any keys: `len` is the number of distinct keys inserted.  Missing: trees in which a split has separated equal
chunks. -/
theorem C06_len_is_distinct_keys_apart_partial (h : History V) (hl : Legal h) (ha : ApartAfter h) :
    lenAfter h = .ok (distinctKeys h) := by
  obtain ⟨t, os, G, h1, R, S⟩ := neat_ok h hl
  obtain ⟨t2, os2, e1, e2⟩ := ha
  rw [h1] at e1; cases e1
  have := (S ((apart_iff R.inv).1 e2)).count
  simp [lenAfter, h1, bind, Except.bind, len, this]

theorem apart_prefix (h g : History V) (hl : Legal (h ++ g)) (ha : ApartAfter (h ++ g)) : ApartAfter h := by
  induction g using List.reverseRecOn with
  | nil => rwa [List.append_nil] at ha
  | append_singleton g p ih =>
    rw [← List.append_assoc] at hl ha
    exact ih (legal_snoc hl).1 (C01_apart_before _ _ _ hl ha)

theorem exec_apart : ∀ (cs : List (Call V)) (h : History V) (t : Tree V) (G : Ghost) (os : List (Option V)) (m : FMap V),
    runFrom empty h = .ok (t, os) → Reach h t G → ExactT h t G → (∀ k, m.get k = mapAfter h k) → m.size = distinctKeys h →
    Legal (h ++ inserts cs) → ApartAfter (h ++ inserts cs) →
    (∀ k, k ∈ lookups cs → k.length ≤ 256) → exec t cs = .ok (m.run cs) := by
  intro cs
  induction cs with
  | nil => intros; rfl
  | cons c cs ih =>
    intro h t G os m hr R S h1 h2 hl ha hlk
    cases c with
    | insert k v =>
      have e : h ++ inserts (.insert k v :: cs) = (h ++ [(k, v)]) ++ inserts cs := by simp [inserts]
      rw [e] at hl ha
      obtain ⟨t2, os2, e1, e2⟩ := apart_prefix _ _ hl ha
      have hl1 : Legal (h ++ [(k, v)]) := ⟨fun p hp => hl.keys p (List.mem_append_left _ hp),
        by have := hl.len; rw [List.length_append] at this; omega⟩
      obtain ⟨t', r, G', g1, R', g3, g4⟩ := neat_step R (legal_snoc hl1).1.len (legal_snoc hl1).2 v
      rw [runFrom_snoc _ _ _ _ hr g1] at e1
      cases e1
      obtain ⟨S', g5⟩ := g4 ((apart_iff R'.inv).1 e2) S
      obtain ⟨f1, f2⟩ := fmap_after h m h1 h2 k v
      have := ih (h ++ [(k, v)]) _ G' _ (m.put k v) (runFrom_snoc _ _ _ _ hr g1) R' S' f1 f2 hl ha hlk
      simp [exec, FMap.run, g1, this, bind, Except.bind, g5, h1]
    | get k =>
      have := ih h t G os m hr R S h1 h2 hl ha (fun k hk => hlk k (by simp [lookups, hk]))
      have hg := S.get R (hlk k (by simp [lookups]))
      simp [exec, FMap.run, hg, this, bind, Except.bind, h1]
    | len =>
      have := ih h t G os m hr R S h1 h2 hl ha hlk
      simp [exec, FMap.run, this, bind, Except.bind, len, S.count, h2]
    | isEmpty =>
      have := ih h t G os m hr R S h1 h2 hl ha hlk
      have e : h.isEmpty = (distinctKeys h == 0) := by
        have := distinctKeys_eq_zero (h := h)
        cases h with
        | nil => rfl
        | cons a b =>
          have : ¬ distinctKeys (a :: b) = 0 := fun c => by simpa using this.1 c
          simp [this]
      simp [exec, FMap.run, this, bind, Except.bind, R.isEmpty, h2, e]

/-- **C04**, for any keys: as long as no split separates equal chunks, all replies are those of a finite map. -/
theorem C04_refines_finite_map_apart (cs : List (Call V)) (hl : Legal (inserts cs)) (hg : ∀ k, k ∈ lookups cs → k.length ≤ 256)
    (ha : ApartAfter (inserts cs)) : exec empty cs = .ok (FMap.empty.run cs) :=
  exec_apart cs [] empty G0 [] FMap.empty rfl reach_empty exactT_empty (fun _ => rfl) rfl hl ha hg

/-! ## The hypotheses are met by non-trivial histories -/

/-- Forty inserts of thirty-five different ten-byte keys: several leaves, and a sublayer for the nine keys that share
their first chunk. -/
def sampleHistory : History Nat :=
  ((List.range 31).map fun i => ([i.toUInt8, 1, 2, 3, 4, 5, 6, 7, 8, 9], i)) ++
  ((List.range 9).map fun i => ([7, 1, 2, 3, 4, 5, 6, 7, 8, 9 + (i / 2).toUInt8], 100 + i))

theorem sample_legal : Legal sampleHistory := ⟨by decide, by decide⟩

theorem sample_noClash : NoClash (keysOf sampleHistory) :=
  noClash_of_length 10 _ (by
    rintro k ⟨v, hv⟩
    have : ∀ p ∈ sampleHistory, p.1.length = 10 := by decide
    exact this (k, v) hv)

set_option maxRecDepth 100000 in
example : lookupAfter sampleHistory [7, 1, 2, 3, 4, 5, 6, 7, 8, 9] = .ok (some 101) ∧
    lenAfter sampleHistory = .ok 35 ∧ distinctKeys sampleHistory = 35 ∧
    mapAfter sampleHistory [7, 1, 2, 3, 4, 5, 6, 7, 8, 9] = some 101 :=
  ⟨isOk_iff.1 (by decide +kernel), isOk_iff.1 (by decide +kernel), by decide +kernel, by decide +kernel⟩

/-- Thirty one-byte keys, eight-byte keys with the same chunk as three of them, and a key of eight bytes followed by two that
continue it: many clashes, and the leaf is split, but not between equal chunks. -/
def mixedHistory : History Nat :=
  ((List.range 30).map fun i => ([i.toUInt8 + 65], i)) ++
  [([65, 0, 0, 0, 0, 0, 0, 0], 100), ([66, 0, 0, 0], 101), ([67, 0, 0, 0, 0, 0, 0, 0, 9], 102), ([67, 0, 0, 0, 0, 0, 0, 0], 103),
    ([67, 0, 0, 0, 0, 0, 0, 0, 9, 9], 104)]

theorem mixed_legal : Legal mixedHistory := ⟨by decide, by decide⟩

theorem mixed_clashes : ¬ NoClash (keysOf mixedHistory) := by
  intro h
  refine h [65] [65, 0, 0, 0, 0, 0, 0, 0] ⟨0, by decide +kernel⟩ ⟨100, by decide +kernel⟩ ⟨0, by decide, by decide, rfl, ?_, ?_⟩ <;> decide

/-- Does the history run to a tree of several leaves whose neighbouring leaves are apart? -/
def apartRun (h : History Nat) : Bool :=
  match runFrom empty h with
  | .ok (t, _) => apartB t && decide (2 < t.fresh)
  | .error _ => false

theorem apartRun_sound {h : History Nat} (e : apartRun h = true) : ApartAfter h := by
  unfold apartRun at e
  split at e
  · rename_i t os h1
    rw [Bool.and_eq_true] at e
    exact ⟨t, os, h1, apartB_sound e.1⟩
  · cases e

theorem mixed_apart : ApartAfter mixedHistory := apartRun_sound (by decide +kernel)

example : lookupAfter mixedHistory [67, 0, 0, 0, 0, 0, 0, 0] = .ok (some 103) := by
  rw [C05_get_is_latest_apart_partial _ mixed_legal mixed_apart _ (by decide)]
  decide +kernel

/-- The history that breaks C01 is one after which neighbouring leaves share a chunk. -/
example : apartRun staleHistory = false := by decide +kernel

/-- A mixed sequence of calls. -/
def sampleCalls : List (Call Nat) :=
  [.isEmpty, .get [1]] ++ sampleHistory.map (fun p => .insert p.1 p.2) ++ [.len, .get [7, 1, 2, 3, 4, 5, 6, 7], .isEmpty]

theorem sampleCalls_inserts : inserts sampleCalls = sampleHistory := by decide +kernel

example : exec empty sampleCalls = .ok (FMap.empty.run sampleCalls) :=
  C04_refines_finite_map _ (sampleCalls_inserts ▸ sample_legal) (by decide) (sampleCalls_inserts ▸ sample_noClash)

/-- The unconditional theorems apply to the histories that break the others. -/
theorem stale_legal : Legal staleHistory := ⟨by decide +kernel, by decide +kernel⟩

example : ¬ NoClash (keysOf staleHistory) := by
  intro h
  refine h [200] [200, 0] ⟨2000, by decide +kernel⟩ ⟨2001, by decide +kernel⟩ ⟨0, by decide, by decide, rfl, ?_, ?_⟩ <;> decide

end Verif.Tree
