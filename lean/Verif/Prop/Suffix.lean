import Verif.Proof.Suffix
/-!
# C22, C42: suffix storage
-/
namespace Verif.Suffix
open Verif.Spec

/-- **C22.** Start from an empty bag of any width and any capacity and make any sequence of legal calls
(`Spec.Suffix.Legal`: slot in range, suffix shorter than 2^16 bytes; compaction lists name a slot at most once).
As long as fewer than `2^32 - 1` bytes are assigned in total, no call panics and reading a slot returns exactly the
bytes last assigned to it, or nothing if it was cleared, compacted away or never assigned (`Spec.Suffix.run`). -/
theorem C22_reads_last_assigned (W cap : Nat) (os : List Op)
    (legal : ∀ o ∈ os, Spec.Suffix.Legal W o) (nodup : ∀ a c, Op.compact a c ∈ os → a.Nodup)
    (small : Spec.Suffix.total os < 2 ^ 32 - 1) :
    ∃ b rs, run W (Bag.withCapacity cap) os = some (b, rs) ∧
      ∀ s, s < W → b.get W s = some (Spec.Suffix.run (fun _ => none) os rs s) ∧
        (∀ bs, b.suffixEquals W s bs =
          some (decide (Spec.Suffix.run (fun _ => none) os rs s = some bs))) ∧
        b.hasSuffix W s = some (Spec.Suffix.run (fun _ => none) os rs s).isSome ∧
        (∀ bs, b.suffixCompare W s bs =
          some ((Spec.Suffix.run (fun _ => none) os rs s).map fun x => byteCmp x bs)) ∧
        b.getOrEmpty W s = some ((Spec.Suffix.run (fun _ => none) os rs s).getD []) := by
  obtain ⟨b, rs, e, i, _, v⟩ := run_spec os (Bag.withCapacity cap) (fun _ => none) (inv_new W cap)
    (fun t _ => view_new cap t) legal nodup (by simp [Bag.withCapacity]; exact small)
  refine ⟨b, rs, e, fun s hs => ⟨?_, ?_, ?_, ?_, ?_⟩⟩
  · rw [i.get hs, v s hs]
  · intro bs
    rw [Bag.suffixEquals, i.get hs, v s hs]
    cases Spec.Suffix.run (fun _ => none) os rs s with
    | none => simp
    | some x => by_cases hx : x = bs <;> simp [hx]
  · rw [← v s hs]
    unfold Bag.hasSuffix Bag.view
    rw [if_pos hs]
    cases (b.slots s).has <;> simp
  · intro bs
    rw [Bag.suffixCompare, i.get hs, v s hs, Option.map_some]
  · rw [Bag.getOrEmpty, i.get hs, v s hs, Option.map_some]

/-- **C22.** After the same calls, `count` is the number of slots that have a suffix.  A compaction then keeps exactly the bytes of the
suffixes it is told to keep, and reports how many bytes that saves. -/
theorem C22_count_and_compact (W cap : Nat) (os : List Op)
    (legal : ∀ o ∈ os, Spec.Suffix.Legal W o) (nodup : ∀ a c, Op.compact a c ∈ os → a.Nodup)
    (small : Spec.Suffix.total os < 2 ^ 32 - 1) :
    ∃ b rs, run W (Bag.withCapacity cap) os = some (b, rs) ∧
      b.count W = ((List.range W).filter fun s => (Spec.Suffix.run (fun _ => none) os rs s).isSome).length ∧
      ∀ (a : List Nat) (c : Nat), a.Nodup → (∀ s ∈ a, s < W) → ∃ b' n, b.compact W a c = some (b', n) ∧ b'.used + n = b.used ∧
        b'.used = (a.map fun s => ((Spec.Suffix.run (fun _ => none) os rs s).getD []).length).sum := by
  obtain ⟨b, rs, e, i, hlen, v⟩ := run_spec os (Bag.withCapacity cap) (fun _ => none) (inv_new W cap)
    (fun t _ => view_new cap t) legal nodup (by simp [Bag.withCapacity]; exact small)
  refine ⟨b, rs, e, ?_, ?_⟩
  · unfold Bag.count
    congr 1
    apply List.filter_congr
    intro s hs
    rw [← v s (by simpa using hs)]
    unfold Bag.view
    cases (b.slots s).has <;> simp
  · intro a c ha hw
    have hle := copied_le i ha
    have hb : b.data.length < 2 ^ 32 - 1 := by
      simp [Bag.withCapacity] at hlen; omega
    obtain ⟨r, e', i', g, v'⟩ := compactLoop_spec i a (Bag.withCapacity c) (inv_new W c) (by simp [Bag.withCapacity]; omega)
    have g' : r.data.length = copied W b a := by rw [g]; simp [Bag.withCapacity]
    refine ⟨_, _, by rw [Bag.compact, e']; rfl, ?_, ?_⟩
    · simp only [Bag.used]; omega
    · simp only [Bag.used]
      rw [g', copied]
      congr 1
      apply List.map_congr_left
      intro s hs
      have hsw := hw s hs
      rw [← v s hsw]
      unfold Bag.view
      by_cases hh : (b.slots s).has = true
      · have := i.bound s hsw hh
        simp [hsw, hh]; omega
      · simp [hh]

example : ((Bag.new.assign 3 0 [1, 2, 3] 0).bind fun b => (b.assign 3 1 [4] 0).bind fun b => (b.compact 3 [1] 0).map fun p => (b.count 3, p.2)) =
    some (2, 3) := by decide

/-- The hypotheses of `C22_reads_last_assigned` are met by a sequence that exercises every kind of call. -/
example : ∃ os : List Op, os.length = 6 ∧ (∀ o ∈ os, Spec.Suffix.Legal 3 o) ∧
    (∀ a c, Op.compact a c ∈ os → a.Nodup) ∧ Spec.Suffix.total os < 2 ^ 32 - 1 :=
  ⟨[.assign 0 [1, 2, 3] 0, .tryAssign 1 [4], .tryAssign 0 [9], .clear 1, .compact [2, 0] 4, .clone 1],
   rfl, by simp [Spec.Suffix.Legal], by simp, by decide⟩

/-- **C22.** When the in-place assignment succeeds: exactly when the slot's present suffix is at least as long, or
the bytes fit behind the used bytes within the capacity. -/
theorem C22_in_place_result (W : Nat) (b : Bag) (s : Nat) (bs : Bytes) (b' : Bag) (r : Bool) (o : Option Bytes)
    (read : b.get W s = some o) (h : b.tryAssign W s bs = some (b', r)) :
    r = true ↔ (∃ old, o = some old ∧ bs.length ≤ old.length) ∨ b.used + bs.length ≤ b.cap := by
  have key : (∃ old, o = some old ∧ bs.length ≤ old.length) ↔ ((b.slots s).has = true ∧ bs.length ≤ (b.slots s).len) := by
    unfold Bag.get at read
    split at read
    · simp only at read
      split at read
      · rename_i hh
        split at read
        · rename_i hl
          obtain rfl := Option.some.inj read
          simp [hh]; omega
        · cases read
      · rename_i hh
        obtain rfl := Option.some.inj read
        simp [hh]
    · cases read
  rw [key]
  unfold Bag.tryAssign at h
  split at h
  · rename_i c0
    simp only at h
    split at h
    · rename_i c1
      split at h
      · obtain ⟨_, rfl⟩ := Prod.mk.inj (Option.some.inj h)
        simp [c1]
      · cases h
    · rename_i c1
      split at h
      · rename_i c2
        obtain ⟨_, rfl⟩ := Prod.mk.inj (Option.some.inj h)
        simp [Bag.used, c2]
      · rename_i c2
        obtain ⟨_, rfl⟩ := Prod.mk.inj (Option.some.inj h)
        simp only [Bool.false_eq_true, false_iff, not_or]
        exact ⟨c1, c2⟩
  · cases h

example : (Bag.new.tryAssign 3 1 [7, 7]).map (·.2) = some true := by decide
example : ((Bag.withCapacity 1).tryAssign 3 1 [7, 7]).map (·.2) = some false := by decide

/-- **C22**, leaf level. Any sequence of suffix assignments, clears, compactions and key-length stores on a fresh leaf,
with fewer than `2^32 - 1` bytes assigned in total, runs without panic, and afterwards `ksuf` of every slot is the bytes
last assigned if the slot's key-length code says "has suffix" (64), and nothing otherwise; `ksuf_equals` agrees. -/
theorem C22_leaf_reads_last_assigned (os : List LOp) (legal : ∀ o ∈ os, Spec.Suffix.LLegal o)
    (nodup : ∀ a e c d, LOp.compact a e c d ∈ os → a.Nodup) (small : Spec.Suffix.ltotal os < 2 ^ 32 - 1) :
    ∃ l, lrun LeafSuf.new os = some l ∧ ∀ s, s < 24 →
      l.ksuf s = some ((Spec.Suffix.lrun ⟨fun _ => none, fun _ => 0⟩ os).read s) ∧
      (∀ bs, l.ksufEquals s bs =
        some (decide ((Spec.Suffix.lrun ⟨fun _ => none, fun _ => 0⟩ os).read s = some bs))) ∧
      l.klx s = (Spec.Suffix.lrun ⟨fun _ => none, fun _ => 0⟩ os).klx s := by
  have h0 : LInv LeafSuf.new ⟨fun _ => none, fun _ => 0⟩ 0 := ⟨by simp [LeafSuf.new], by simp [LeafSuf.new]⟩
  obtain ⟨l, e, i⟩ := lrun_spec os _ _ 0 h0 legal nodup (by omega)
  exact ⟨l, e, fun s hs => ⟨i.read hs, i.equals hs, i.2 s⟩⟩

example : ∃ os : List LOp, os.length = 5 ∧ (∀ o ∈ os, Spec.Suffix.LLegal o) ∧
    (∀ a e c d, LOp.compact a e c d ∈ os → a.Nodup) ∧ Spec.Suffix.ltotal os < 2 ^ 32 - 1 ∧
    (Spec.Suffix.lrun ⟨fun _ => none, fun _ => 0⟩ os).read 3 = some [5, 6] :=
  ⟨[.assign 3 [1] 0 0, .assign 23 [8] 1 1, .clear 23 0, .compact [3, 4] none 0 0, .assign 3 [5, 6] 2 2],
   rfl, by simp [Spec.Suffix.LLegal], by simp +contextual, by decide, by decide⟩

/-! ## Growth without bound, and what happens at 4 GiB -/

/-- `n` rounds of storing 64 zero bytes in slot 0 and clearing the slot again. -/
def cycles (n : Nat) : List LOp :=
  (List.replicate n [LOp.assign 0 (List.replicate 64 0) 0 0, LOp.clear 0 0]).flatten

/-- A leaf that holds no suffix but whose bag has `n` dead (zero) bytes. -/
def Dead (n : Nat) (l : LeafSuf) : Prop :=
  (∀ s, l.klx s = 0) ∧
  ((l.bag = none ∧ n = 0) ∨ ∃ b, l.bag = some b ∧ b.data = List.replicate n 0 ∧ ∀ s, b.slots s = Meta.empty)

theorem assign_dead {l : LeafSuf} {n : Nat} (h : Dead n l) (bs : Bytes) (hb : bs.length < 2 ^ 16) :
    ∃ l' b, l.assignKsuf 0 bs 0 0 = some l' ∧ l'.bag = some b ∧ b.data = List.replicate n 0 ++ bs ∧
      b.slots = setSlot (fun _ => Meta.empty) 0 ⟨n % 2 ^ 32, bs.length⟩ ∧
      (∀ s, l'.klx s = if s = 0 then 64 else 0) := by
  have hm : bs.length % 2 ^ 16 = bs.length := Nat.mod_eq_of_lt hb
  obtain ⟨hk, ⟨hn, rfl⟩ | ⟨b, hn, hd, hs⟩⟩ := h
  · have e : Bag.new.assign W24 0 bs 0 = some ⟨setSlot Bag.new.slots 0 ⟨Bag.new.data.length % 2 ^ 32, bs.length % 2 ^ 16⟩,
        Bag.new.data ++ bs, max Bag.new.cap (max 0 (Bag.new.data.length + bs.length))⟩ := by
      unfold Bag.assign
      rw [if_pos ⟨by decide, hb⟩]
    refine ⟨_, _, by rw [LeafSuf.assignKsuf, hn]; simp only [e]; rfl, rfl, ?_, ?_, ?_⟩
    · simp [Bag.new]
    · simp only [hm]; rfl
    · intro s; simp [LeafSuf.setKlx, hk, ksufKeylenx]
  · have hle : b.data.length = n := by rw [hd]; exact List.length_replicate
    have hsl : b.slots = fun _ => Meta.empty := funext hs
    by_cases c2 : b.data.length + bs.length ≤ b.cap
    · have e : b.tryAssign W24 0 bs = some (⟨setSlot b.slots 0 ⟨b.data.length % 2 ^ 32, bs.length % 2 ^ 16⟩,
          b.data ++ bs, b.cap⟩, true) := by
        unfold Bag.tryAssign
        rw [if_pos ⟨by decide, hb⟩]
        simp only [hs, has_empty, Bool.false_eq_true, false_and, if_false, if_pos c2]
      refine ⟨_, _, by rw [LeafSuf.assignKsuf, hn]; simp only [e]; rfl, rfl, ?_, ?_, ?_⟩
      · simp [hd]
      · simp only [hm, hsl, hle]
      · intro s; simp [LeafSuf.setKlx, hk, ksufKeylenx]
    · have e : b.tryAssign W24 0 bs = some (b, false) := by
        unfold Bag.tryAssign
        rw [if_pos ⟨by decide, hb⟩]
        simp only [hs, has_empty, Bool.false_eq_true, false_and, if_false, if_neg c2]
      have e2 : (b.clone 0).assign W24 0 bs 0 = some ⟨setSlot b.slots 0 ⟨b.data.length % 2 ^ 32, bs.length % 2 ^ 16⟩,
          b.data ++ bs, max (b.clone 0).cap (max 0 (b.data.length + bs.length))⟩ := by
        unfold Bag.assign
        rw [if_pos ⟨by decide, hb⟩]; rfl
      refine ⟨_, _, by rw [LeafSuf.assignKsuf, hn]; simp only [e, e2]; rfl, rfl, ?_, ?_, ?_⟩
      · simp [hd]
      · simp only [hm, hsl, hle]
      · intro s; simp [LeafSuf.setKlx, hk, ksufKeylenx]

theorem cycle_dead {l : LeafSuf} {n : Nat} (h : Dead n l) :
    ∃ l', lrun l [LOp.assign 0 (List.replicate 64 0) 0 0, LOp.clear 0 0] = some l' ∧ Dead (n + 64) l' := by
  obtain ⟨l1, b, e, hb, hd, hs, hk⟩ := assign_dead h (List.replicate 64 0) (by simp)
  refine ⟨{ l1 with bag := some ⟨setSlot b.slots 0 Meta.empty, b.data, (b.clone 0).cap⟩ }.setKlx 0 0, ?_, ?_, Or.inr ⟨_, rfl, ?_, ?_⟩⟩
  · simp only [lrun, lstep, e, Option.bind_some, LeafSuf.clearKsuf, hb, Bag.clear]
    rfl
  · intro s; simp only [LeafSuf.setKlx, hk]; split <;> rfl
  · show b.data = _
    rw [hd, List.replicate_append_replicate]
  · intro s; rw [hs]; simp only [setSlot]; split <;> rfl

theorem lrun_append (a b : List LOp) (l : LeafSuf) : lrun l (a ++ b) = (lrun l a).bind fun x => lrun x b := by
  induction a generalizing l with
  | nil => rfl
  | cons o a ih =>
    simp only [List.cons_append, lrun]
    cases lstep l o with
    | none => rfl
    | some l' => simp [ih]

theorem cycles_dead (n : Nat) : ∀ (l : LeafSuf) (k : Nat), Dead k l →
    ∃ l', lrun l (cycles n) = some l' ∧ Dead (k + 64 * n) l' := by
  induction n with
  | zero => intro l k h; exact ⟨l, rfl, h⟩
  | succ n ih =>
    intro l k h
    obtain ⟨l1, e1, d1⟩ := cycle_dead h
    obtain ⟨l2, e2, d2⟩ := ih l1 _ d1
    refine ⟨l2, ?_, ?_⟩
    · rw [cycles, List.replicate_succ, List.flatten_cons, lrun_append, e1]
      exact e2
    · rw [show k + 64 * (n + 1) = k + 64 + 64 * n by omega]; exact d2

theorem dead_new : Dead 0 LeafSuf.new := ⟨fun _ => rfl, Or.inl ⟨rfl, rfl⟩⟩

/-- **C22**, limit of the claim. Without the 4 GiB bound the property is false: there is a sequence of legal suffix
assignments and clears on one slot of a fresh leaf (no compaction, as in the tree, which never calls it), after which
the slot's suffix reads back as different bytes than the ones just assigned. -/
theorem C22_fails_beyond_4GiB : ∃ os : List LOp, (∀ o ∈ os, Spec.Suffix.LLegal o) ∧
    ∃ l, lrun LeafSuf.new os = some l ∧
      (Spec.Suffix.lrun ⟨fun _ => none, fun _ => 0⟩ (os)).read 0 = some [1] ∧ l.ksuf 0 = some (some [0]) := by
  obtain ⟨k, N, hN, hN0, hNm⟩ : ∃ k N : Nat, 0 + 64 * k = N + 1 ∧ N + 1 = 2 ^ 32 ∧ (N + 1) % 2 ^ 32 = 0 :=
    ⟨2 ^ 26, 2 ^ 32 - 1, by decide, by decide, by decide⟩
  obtain ⟨l1, e1, d1⟩ := cycles_dead k _ _ dead_new
  rw [hN] at d1
  obtain ⟨l2, b, e2, hb, hd, hs, hk⟩ := assign_dead d1 [1] (by decide)
  rw [hNm] at hs
  refine ⟨cycles k ++ [LOp.assign 0 [1] 0 0], ?_, l2, ?_, ?_, ?_⟩
  · intro o ho
    simp only [cycles, List.mem_append, List.mem_flatten, List.mem_replicate] at ho
    rcases ho with ⟨x, ⟨_, rfl⟩, ho⟩ | ho
    · simp only [List.mem_cons, List.not_mem_nil, or_false] at ho
      rcases ho with rfl | rfl
      · exact ⟨by decide, by rw [List.length_replicate]; decide⟩
      · exact (by decide : 0 < 24)
    · simp only [List.mem_cons, List.not_mem_nil, or_false] at ho
      subst ho
      exact ⟨by decide, by decide⟩
  · rw [lrun_append, e1]
    simp only [Option.bind_some, lrun, lstep, e2]
  · have : ∀ (a : List LOp) (m : Spec.Suffix.LMap),
        (Spec.Suffix.lrun m (a ++ [LOp.assign 0 [1] 0 0])).read 0 = some [1] := by
      intro a
      induction a with
      | nil => intro m; simp [Spec.Suffix.lrun, Spec.Suffix.lstep, Spec.Suffix.LMap.read]
      | cons o a ih => intro m; exact ih _
    exact this _ _
  · have hk0 : l2.klx 0 = 64 := hk 0
    have hs0 : b.slots 0 = ⟨0, 1⟩ := by rw [hs]; rfl
    have hlen : 1 ≤ b.data.length := by rw [hd, List.length_append, List.length_replicate]; omega
    have hd0 : b.data.take 1 = [0] := by rw [hd, List.replicate_succ]; rfl
    unfold LeafSuf.ksuf
    rw [hk0, if_pos (show 64 = ksufKeylenx from rfl), hb]
    simp only [Bag.get, hs0]
    have h2 : (Meta.has ⟨0, 1⟩) = true := by decide
    have h3 : (0 : Nat) < W24 := by decide
    rw [if_pos h3, if_pos h2, if_pos (by omega), List.drop_zero, hd0]

/-- **C42** (violated). The suffix memory of a leaf is not bounded by what it stores: for every `n` there is a sequence
of legal assignments and clears after which no slot has a suffix and the leaf still holds at least `n` bytes. -/
theorem C42_dead_suffix_bytes_accumulate (n : Nat) : ∃ os : List LOp, ∃ l b,
    lrun LeafSuf.new os = some l ∧ (∀ s, s < 24 → l.ksuf s = some none) ∧ l.bag = some b ∧ n ≤ b.used := by
  obtain ⟨l, e, d⟩ := cycles_dead (n + 1) _ _ dead_new
  obtain ⟨hk, ⟨_, h0⟩ | ⟨b, hb, hd, hs⟩⟩ := d
  · omega
  · refine ⟨_, l, b, e, ?_, hb, ?_⟩
    · intro s _
      unfold LeafSuf.ksuf
      rw [hk s, if_neg (by decide)]
    · rw [Bag.used, hd, List.length_replicate]; omega

/-- **C42**, what does hold: a call adds at most the bytes of the suffix it assigns, so the bag never holds more than
the total assigned, and compaction brings it down to the bytes of the slots kept. -/
theorem C42_growth_bound_partial (os : List LOp) (legal : ∀ o ∈ os, Spec.Suffix.LLegal o)
    (nodup : ∀ a e c d, LOp.compact a e c d ∈ os → a.Nodup) (small : Spec.Suffix.ltotal os < 2 ^ 32 - 1)
    (l : LeafSuf) (h : lrun LeafSuf.new os = some l) (b : Bag) (hb : l.bag = some b) :
    b.used ≤ Spec.Suffix.ltotal os := by
  have h0 : LInv LeafSuf.new ⟨fun _ => none, fun _ => 0⟩ 0 := ⟨by simp [LeafSuf.new], by simp [LeafSuf.new]⟩
  obtain ⟨l', e, i⟩ := lrun_spec os _ _ 0 h0 legal nodup (by omega)
  rw [h] at e
  obtain rfl := Option.some.inj e
  have := i.1
  rw [hb] at this
  have := this.2.1
  rw [Bag.used]; omega

end Verif.Suffix
