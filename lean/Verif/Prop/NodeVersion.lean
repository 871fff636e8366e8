import Verif.Proof.NodeVersion
set_option linter.unusedSimpArgs false
set_option linter.unusedVariables false
/-!
Properties C19, C20, C21: what version words tell readers.
-/
namespace Verif.NV
open F

/-- The words an unlocked node can carry: a fresh node, a node born split-locked and then
unlocked, and whatever critical sections and root-flag updates make of them. -/
inductive Reachable : W → Prop
  | new (b : Bool) : Reachable (new b)
  | born (src : W) : Reachable (unlockForSplit (newForSplit src))
  | step {w : W} (h : Reachable w) (e : Ev) : Reachable (stepEv w e)

theorem of_newForSplit (src : W) : of (newForSplit src) = ⟨(of src).l, 0, 0, 0, 0, 0, 5⟩ := by
  have h := of_ok src
  rw [newForSplit, of_or, of_or, of_and, of_ISLEAF, of_LOCK, of_SPLITTING]
  simp only [map2, Nat.and_zero, Nat.or_zero, and_one_bit h.l]; rfl

theorem Reachable.idle {w : W} (h : Reachable w) : Idle w := by
  induction h with
  | new b => cases b <;> exact ⟨by decide, by decide⟩
  | born src =>
    have e := of_unlockForSplit (lv := newForSplit src) (by rw [of_newForSplit])
    exact ⟨by rw [e], by rw [e, of_newForSplit]⟩
  | step h e ih => exact stepEv_idle ih e

/-- Every reachable word can be returned by `stable` and can be locked. -/
theorem reachable_stable {w : W} (h : Reachable w) : stableOk w = true ∧ lockable w = true := by
  have := h.idle.w0
  simp [stableOk_iff, lockable_iff, this]

/-- **C19.** A reader that saw `v`, then at least one and fewer than `2^19` critical sections
completed (with any marks, and any root-flag updates in between): `has_changed` reports it,
whether the node is currently unlocked or again locked with any marks made so far. -/
theorem C19_reader_notices {v : W} (hv : Reachable v) (es : List Ev)
    (h1 : 1 ≤ nSections es) (h2 : nSections es < 2 ^ 19) :
    hasChanged v (run v es) = true ∧
    ∀ ms, hasChanged v (heldAfter (run v es) ms).1 = true := by
  obtain ⟨p, hp1, hp2, hp3, -⟩ := run_ctr hv.idle es
  have hc : ctr (run v es) ≠ ctr v := by
    have := ctr_lt v
    rw [hp1]; omega
  have key : ∀ x : W, (of x).s = (of (run v es)).s → (of x).i = (of (run v es)).i →
      hasChanged v x = true := by
    intro x hs hi
    rw [← Bool.not_eq_false, hasChanged_eq_false_iff]
    rintro ⟨-, -, -, -, h5, h6, -⟩
    apply hc
    rw [ctr, ctr, h5, h6, hs, hi]
  refine ⟨key _ rfl rfl, fun ms => ?_⟩
  have hh := heldAfter_held (run_idle hv.idle es).w0 ms
  apply key
  · rw [hh.same, hh.s]
  · rw [hh.same, hh.i]

example : Reachable (new true) ∧ 1 ≤ nSections [Ev.cs [.insert], Ev.cs [.split]] ∧
    hasChanged (new true) (run (new true) [Ev.cs [.insert], Ev.cs [.split]]) = true :=
  ⟨.new true, by decide, by decide⟩

/-- **C19**, the other direction: an unchanged answer means no critical section completed
(as long as fewer than `2^19` could have). -/
theorem C19_unchanged_means_no_write {v : W} (hv : Reachable v) (es : List Ev)
    (h2 : nSections es < 2 ^ 19) (hn : hasChanged v (run v es) = false) : nSections es = 0 := by
  by_cases h : 1 ≤ nSections es
  · rw [(C19_reader_notices hv es h h2).1] at hn; cases hn
  · omega

theorem run_splits (v : W) (hv : Idle v) (n : Nat) :
    (of (run v (List.replicate (n + 1) (.cs [.split])))) =
      { of v with r := 0, s := ((of v).s + (n + 1)) % 2 ^ 19, i := 0, w := 0 } := by
  have one : ∀ w : W, Idle w → of (cycle w [.split]) =
      { of w with r := 0, s := ((of w).s + 1) % 2 ^ 19, i := 0, w := 0 } := by
    intro w hw
    have hh := heldAfter_held hw.w0 [.split]
    have e := of_unlock_split (lv := (heldAfter w [.split]).2)
      (by rw [hh.w]; decide) (by rw [hh.u, hw.u0])
    have e2 : of (heldAfter w [.split]).2 = { of w with w := 7 } := by
      simp only [heldAfter, List.foldl, applyMark, of_or, of_SPLITTING, of_lockedOf hw.w0, map2,
        Nat.or_zero]
      rfl
    rw [cycle, e, e2]
  induction n generalizing v with
  | zero => exact one v hv
  | succ n ih =>
    rw [List.replicate_succ]
    show of (run (cycle v [.split]) _) = _
    rw [ih _ (cycle_idle hv _), one v hv]
    simp only [F.mk.injEq, true_and, and_true]
    omega

/-- **C19**, the limit: after exactly `2^19` splits the counter is back, and a reader that slept
through all of them is told that nothing changed. -/
theorem C19_wraps_at_2_19 {v : W} (hv : Reachable v) (hr : isRoot v = false)
    (hi : (of v).i = 0) :
    hasChanged v (run v (List.replicate (2 ^ 19) (.cs [.split]))) = false := by
  have e := run_splits v hv.idle (2 ^ 19 - 1)
  have e1 : 2 ^ 19 - 1 + 1 = 2 ^ 19 := rfl
  rw [e1] at e
  have hr0 : (of v).r = 0 := by
    rw [isRoot_iff, decide_eq_false_iff_not] at hr
    have := (of_ok v).r; omega
  have hs := (of_ok v).s
  rw [hasChanged_eq_false_iff, e]
  refine ⟨rfl, hr0, rfl, rfl, ?_, hi, ?_⟩
  · simp only; omega
  · rw [hv.idle.w0]

example : Reachable (run (new true) [.cs [.split]]) ∧
    isRoot (run (new true) [.cs [.split]]) = false ∧ (of (run (new true) [.cs [.split]])).i = 0 :=
  ⟨.step (.new true) (.cs [.split]), by decide, by decide⟩

/-- A writer that holds the lock and has not marked a split is invisible to `has_changed`
(this is what makes the reader races of C29 possible) but not to `has_changed_or_locked`. -/
theorem C19_writer_in_progress_unseen {v : W} (hv : Reachable v) :
    hasChanged v (heldAfter v [.insert]).1 = false ∧
    hasChangedOrLocked v (heldAfter v [.insert]).1 = true := by
  have hw := hv.idle.w0
  have hh := heldAfter_held hw [.insert]
  have e : (heldAfter v [.insert]).1 = lockedOf v := by
    have : ((lockedOf v &&& INSERTING) == 0#32) = false := by
      rw [beq_eq_false_iff_ne, ne_eq, eq_zero_iff, of_and, of_INSERTING, of_lockedOf hw]
      simp [map2]
    simp only [heldAfter, List.foldl, applyMark, this]; rfl
  have hc : hasChanged v (lockedOf v) = false := by
    rw [hasChanged_eq_false_iff, of_lockedOf hw]
    simp [hw]
  rw [e]
  refine ⟨hc, ?_⟩
  have hd : (lockedOf v &&& DIRTY) != 0#32 := by
    rw [bne_iff_ne, ne_eq, eq_zero_iff, of_and, of_DIRTY, of_lockedOf hw]
    simp [map2]
  rw [hasChangedOrLocked]
  split
  · rfl
  · simp [hd]

/-- A writer that has marked a split is visible at once. -/
theorem C20_split_in_progress_seen {v : W} (hv : Reachable v) (ms : List Mark)
    (hm : marksSplit ms = true) : hasChanged v (heldAfter v ms).1 = true := by
  have hh := heldAfter_held hv.idle.w0 ms
  rw [← Bool.not_eq_false, hasChanged_eq_false_iff]
  rintro ⟨-, -, -, -, -, -, h⟩
  rw [hv.idle.w0, hh.same, hh.w, hm] at h
  simp at h

/-- **C20.** If at least one of fewer than `2^19` completed critical sections was a split (or
deletion), `has_split` reports it, also while the node is locked again. -/
theorem C20_reader_notices_split {v : W} (hv : Reachable v) (es : List Ev)
    (h1 : 1 ≤ nSplits es) (h2 : nSections es < 2 ^ 19) :
    hasSplit v (run v es) = true ∧ ∀ ms, hasSplit v (heldAfter (run v es) ms).1 = true := by
  obtain ⟨p, hp1, hp2, hp3, hp4⟩ := run_ctr hv.idle es
  have hd : ∀ x : W, ctr x / 64 = (of x).s := by
    intro x
    have := (of_ok x).i
    simp only [ctr]; omega
  have hc : (of (run v es)).s ≠ (of v).s := by
    have := ctr_lt v
    rw [← hd, ← hd, hp1]
    omega
  have key : ∀ x : W, (of x).s = (of (run v es)).s → hasSplit v x = true := by
    intro x hs
    rw [← Bool.not_eq_false, hasSplit_eq_false_iff]
    rintro ⟨-, -, -, -, h5⟩
    apply hc
    rw [← hs, h5]
  refine ⟨key _ rfl, fun ms => ?_⟩
  have hh := heldAfter_held (run_idle hv.idle es).w0 ms
  apply key
  rw [hh.same, hh.s]

/-- **C20.** A false answer means no split happened. -/
theorem C20_false_means_no_split {v : W} (hv : Reachable v) (es : List Ev)
    (h2 : nSections es < 2 ^ 19) (hn : hasSplit v (run v es) = false) : nSplits es = 0 := by
  by_cases h : 1 ≤ nSplits es
  · rw [(C20_reader_notices_split hv es h h2).1] at hn; cases hn
  · omega

example : nSplits [Ev.cs [.insert], Ev.cs [.split]] = 1 ∧
    hasSplit (new false) (run (new false) [Ev.cs [.insert], Ev.cs [.split]]) = true := by decide

/-- `has_split` can answer true without any split: 64 inserts carry into the split counter.
Readers then restart needlessly; they never miss a split. -/
theorem C20_spurious :
    hasSplit (new true) (run (new true) (List.replicate 64 (.cs [.insert]))) = true ∧
    nSplits (List.replicate 64 (.cs [.insert])) = 0 := by decide +kernel

/-- **C21.** Through any history: the node kind never changes; a deleted mark survives; the
unused bit stays clear. -/
theorem C21_kind_and_deleted_kept {v : W} (hv : Reachable v) (es : List Ev) :
    isLeaf (run v es) = isLeaf v ∧ (isDeleted v = true → isDeleted (run v es) = true) ∧
    lockable (run v es) = true := by
  have main : ∀ (es : List Ev) (v : W), Idle v →
      (of (run v es)).l = (of v).l ∧ ((of v).d = 1 → (of (run v es)).d = 1) := by
    intro es
    induction es with
    | nil => intro v _; exact ⟨rfl, id⟩
    | cons e es ih =>
      intro v hv
      have h := ih _ (stepEv_idle hv e)
      have h2 : (of (stepEv v e)).l = (of v).l ∧ ((of v).d = 1 → (of (stepEv v e)).d = 1) := by
        cases e with
        | cs ms =>
          have := cycle_fields hv.w0 hv.u0 ms
          exact ⟨this.2.2.1, this.2.2.2.2.1⟩
        | setRoot => simp [stepEv, of_markRoot]
        | clearRoot => simp [stepEv, of_markNonroot]
      exact ⟨h.1.trans h2.1, fun hd => h.2 (h2.2 hd)⟩
  obtain ⟨h1, h2⟩ := main es v hv.idle
  refine ⟨by rw [isLeaf_iff, isLeaf_iff, h1], ?_, ?_⟩
  · rw [isDeleted_iff, isDeleted_iff]; simpa using h2
  · rw [lockable_iff, (run_idle hv.idle es).w0]; rfl

/-- **C21.** A critical section without split, delete or nonroot marks keeps the root flag;
one with a split or delete mark clears it; none sets it. -/
theorem C21_root_flag {v : W} (hv : Reachable v) (ms : List Mark) :
    (marksSplit ms = true → isRoot (cycle v ms) = false) ∧
    (isRoot (cycle v ms) = true → isRoot v = true) ∧
    (marksSplit ms = false → Mark.nonroot ∉ ms → isRoot (cycle v ms) = isRoot v) := by
  have h := cycle_fields hv.idle.w0 hv.idle.u0 ms
  refine ⟨?_, ?_, ?_⟩
  · intro hm
    rw [isRoot_iff, h.2.2.2.2.2.1 hm]; rfl
  · rw [isRoot_iff, isRoot_iff]; simpa using h.2.2.2.1
  · intro hm hn
    have hms : ∀ m ∈ ms, m = Mark.insert := by
      intro m hmem
      have h1 : ¬ (m = .split ∨ m = .deleted) := by
        intro hc
        rw [marksSplit, List.any_eq_false] at hm
        have := hm m hmem
        rcases hc with rfl | rfl <;> simp at this
      cases m with
      | insert => rfl
      | split => exact absurd (Or.inl rfl) h1
      | deleted => exact absurd (Or.inr rfl) h1
      | nonroot => exact absurd hmem hn
    have hheld : ∀ (ms : List Mark), (∀ m ∈ ms, m = Mark.insert) →
        heldAfter v ms = (lockedOf v, lockedOf v) := by
      intro ms
      induction ms with
      | nil => intro _; rfl
      | cons m ms ih =>
        intro hall
        have : ((lockedOf v &&& INSERTING) == 0#32) = false := by
          rw [beq_eq_false_iff_ne, ne_eq, eq_zero_iff, of_and, of_INSERTING,
            of_lockedOf hv.idle.w0]
          simp [map2]
        have hm0 := hall m (List.mem_cons_self ..)
        subst hm0
        have := ih (fun m hm => hall m (List.mem_cons_of_mem _ hm))
        simp only [heldAfter, List.foldl_cons, applyMark, *] at *
        simpa using this
    rw [cycle, hheld ms hms]
    have e := of_unlock_insert (lv := lockedOf v) (by rw [of_lockedOf hv.idle.w0]; simp)
      (by rw [of_lockedOf hv.idle.w0]; exact hv.idle.u0)
    rw [isRoot_iff, isRoot_iff, e, of_lockedOf hv.idle.w0]

example : isRoot (cycle (markRoot (new true)) [.insert]) = true ∧
    isRoot (cycle (markRoot (new true)) [.split]) = false := by decide

/-- **C21.** The additions in the guard's drop never overflow 32 bits, so a debug build
does not panic there. -/
theorem C21_no_overflow {v : W} (hv : Reachable v) (ms : List Mark) :
    (heldAfter v ms).2.toNat + VSPLIT.toNat < 2 ^ 32 ∧
    (heldAfter v ms).2.toNat + (((heldAfter v ms).2 &&& INSERTING) <<< 2).toNat < 2 ^ 32 := by
  have hh := heldAfter_held hv.idle.w0 ms
  have hu : (of (heldAfter v ms).2).u = 0 := by rw [hh.u, hv.idle.u0]
  have hok := of_ok (heldAfter v ms).2
  have hle : (((heldAfter v ms).2 &&& INSERTING) <<< 2).toNat ≤ 8 := by
    have : ((heldAfter v ms).2 &&& INSERTING) = INSERTING := by
      apply ext_of
      rw [of_and, of_INSERTING]
      simp only [map2, Nat.and_zero, hh.w]
      cases marksSplit ms <;> rfl
    rw [this]; decide
  rw [toNat_of (heldAfter v ms).2]
  have e : VSPLIT.toNat = 512 := rfl
  rw [e]
  have := hok.l; have := hok.r; have := hok.d; have := hok.s; have := hok.i; have := hok.w
  simp only [enc, hu]
  omega

/-- The node born from a split has the kind of its source, is locked and splitting at first, and
after unlocking is an ordinary unlocked non-root, non-deleted node. -/
theorem C21_born_from_split (src : W) :
    isLeaf (newForSplit src) = isLeaf src ∧ isSplitLocked (newForSplit src) = true ∧
    stableOk (newForSplit src) = false ∧ lockable (newForSplit src) = false ∧
    (let v := unlockForSplit (newForSplit src)
     isLeaf v = isLeaf src ∧ isRoot v = false ∧ isDeleted v = false ∧ lockable v = true) := by
  have hn := of_newForSplit src
  have e := of_unlockForSplit (lv := newForSplit src) (by rw [hn])
  refine ⟨?_, ?_, ?_, ?_, ?_, ?_, ?_, ?_⟩
  · rw [isLeaf_iff, isLeaf_iff, hn]
  · rw [isSplitLocked, beq_iff_eq]
    apply ext_of
    rw [of_and, hn, of_or, of_LOCK, of_SPLITTING]
    simp only [map2, Nat.or_zero, Nat.and_zero]; rfl
  · rw [stableOk_iff, hn]; rfl
  · rw [lockable_iff, hn]; rfl
  · rw [isLeaf_iff, isLeaf_iff, e, hn]
  · rw [isRoot_iff, e]; rfl
  · rw [isDeleted_iff, e, hn]; rfl
  · rw [lockable_iff, e]; rfl

/-- **C21.** What the flags say of a critical section.  While it lasts, after whatever marks: the node is locked, inserting and dirty, no reader
takes its word for a stable one and nobody else can lock it; it is splitting exactly if a split or delete was marked.  When it is over, none of
these flags is left. -/
theorem C21_flags_tell {v : W} (hv : Reachable v) (ms : List Mark) :
    (let h := (heldAfter v ms).1
     isLocked h = true ∧ isInserting h = true ∧ isDirty h = true ∧ stableOk h = false ∧ lockable h = false ∧
     isSplitting h = marksSplit ms ∧ isSplitLocked h = marksSplit ms) ∧
    (let u := cycle v ms
     isLocked u = false ∧ isInserting u = false ∧ isDirty u = false ∧ stableOk u = true ∧ lockable u = true ∧
     isSplitting u = false ∧ isSplitLocked u = false) := by
  have flag : ∀ (x f : W) (n m : Nat), of f = ⟨0, 0, 0, 0, 0, 0, n⟩ → (of x).w = m →
      ((x &&& f) != 0#32) = decide (m &&& n ≠ 0) := by
    intro x f n m hf hx
    rw [bne, Bool.eq_iff_iff]
    simp only [Bool.not_eq_true', beq_eq_false_iff_ne, ne_eq, eq_zero_iff, of_and, hf, map2, Nat.and_zero,
      decide_eq_true_eq, F.mk.injEq, true_and, hx]
  have both : ∀ (x : W) (m : Nat), (of x).w = m → isSplitLocked x = decide (m &&& 5 = 5) := by
    intro x m hx
    have e5 : of (LOCK ||| SPLITTING) = ⟨0, 0, 0, 0, 0, 0, 5⟩ := by decide
    rw [isSplitLocked, Bool.eq_iff_iff, beq_iff_eq, decide_eq_true_eq]
    constructor
    · intro h
      have := congrArg (fun y => (of y).w) h
      simpa [of_and, e5, map2, hx] using this
    · intro h
      apply ext_of
      rw [of_and, e5]
      simp only [map2, Nat.and_zero, hx, h]
  have hh := heldAfter_held hv.idle.w0 ms
  have w1 : (of (heldAfter v ms).1).w = if marksSplit ms then 7 else 3 := by rw [hh.same]; exact hh.w
  have w2 := (cycle_idle hv.idle ms).w0
  have u1 := flag _ _ _ _ of_LOCK w1
  have u2 := flag _ _ _ _ of_INSERTING w1
  have u3 := flag _ _ _ _ of_DIRTY w1
  have u4 := flag _ _ _ _ of_SPLITTING w1
  refine ⟨⟨?_, ?_, ?_, ?_, ?_, ?_, ?_⟩, ⟨?_, ?_, ?_, ?_, ?_, ?_, ?_⟩⟩
  · rw [isLocked, u1]; cases marksSplit ms <;> rfl
  · rw [isInserting, u2]; cases marksSplit ms <;> rfl
  · rw [isDirty, u3]; cases marksSplit ms <;> rfl
  · rw [stableOk_iff, w1]; cases marksSplit ms <;> rfl
  · rw [lockable_iff, w1]; cases marksSplit ms <;> rfl
  · rw [isSplitting, u4]; cases marksSplit ms <;> rfl
  · rw [both _ _ w1]; cases marksSplit ms <;> rfl
  · rw [isLocked, flag _ _ _ _ of_LOCK w2]; rfl
  · rw [isInserting, flag _ _ _ _ of_INSERTING w2]; rfl
  · rw [isDirty, flag _ _ _ _ of_DIRTY w2]; rfl
  · rw [stableOk_iff, w2]; rfl
  · rw [lockable_iff, w2]; rfl
  · rw [isSplitting, flag _ _ _ _ of_SPLITTING w2]; rfl
  · rw [both _ _ w2]; rfl

example : isSplitLocked (heldAfter (new true) [.insert, .split]).1 = true ∧ isSplitLocked (heldAfter (new true) [.insert]).1 = false := by decide

/-- **C41.** The single-threaded version type yields, for every critical section, exactly the word
the concurrent one yields. -/
theorem C41_single_threaded_agrees {v : W} (hv : Reachable v) (ms : List Mark) :
    stCycle v ms = cycle v ms := by
  -- relation between the two held words
  have rel : ∀ (ms : List Mark) (a : W) (p : W × W) (b : Bool), Held (of v) p b →
      of p.2 = { of a with w := if b then 7 else 3 } → (of a).w = (if b then 4 else 0) →
      ∃ b', Held (of v) (ms.foldl (fun s m => applyMark m s) p) b' ∧
        of (ms.foldl (fun s m => applyMark m s) p).2 =
          { of (ms.foldl (fun w m => stMark m w) a) with w := if b' then 7 else 3 } ∧
        (of (ms.foldl (fun w m => stMark m w) a)).w = (if b' then 4 else 0) := by
    intro ms
    induction ms with
    | nil => intro a p b h1 h2 h3; exact ⟨b, h1, h2, h3⟩
    | cons m ms ih =>
      intro a p b h1 h2 h3
      simp only [List.foldl_cons]
      refine ih _ _ _ (held_step h1 m) ?_ ?_
      · obtain ⟨w, lv⟩ := p
        have hs := h1.same
        simp only at hs h2
        subst hs
        have hoa := of_ok a
        cases m with
        | insert =>
          have : ((w &&& INSERTING) == 0#32) = false := by
            rw [beq_eq_false_iff_ne, ne_eq, eq_zero_iff, of_and, of_INSERTING, h2]
            simp only [map2]
            cases b <;> simp
          simp only [applyMark, stMark, this]
          simpa using h2
        | split =>
          simp only [applyMark, stMark, of_or, of_SPLITTING, h2, map2, Nat.or_zero]
          cases b <;> rfl
        | deleted =>
          simp only [applyMark, stMark, of_or, of_SPLITTING, of_DELETED, h2, map2, Nat.or_zero,
            Nat.zero_or]
          cases b <;> rfl
        | nonroot =>
          simp only [applyMark, stMark, of_and, of_NROOT, h2, map2, Nat.and_zero]
          cases b <;> rfl
      · have hoa := of_ok a
        cases m with
        | insert => simpa [stMark] using h3
        | split =>
          simp only [stMark, of_or, of_SPLITTING, map2, h3]
          cases b <;> rfl
        | deleted =>
          simp only [stMark, of_or, of_SPLITTING, of_DELETED, map2, h3]
          cases b <;> rfl
        | nonroot =>
          simp only [stMark, of_and, of_NROOT, map2, h3]
          cases b <;> rfl
  obtain ⟨b, hh, he, hw⟩ := rel ms v (lockedOf v, lockedOf v) false
    (by constructor <;> simp [of_lockedOf hv.idle.w0]) (by simp [of_lockedOf hv.idle.w0])
    (by simp [hv.idle.w0])
  have hu : (of (heldAfter v ms).2).u = 0 := by
    have := hh.u; rw [hv.idle.u0] at this; exact this
  apply ext_of
  generalize ha : ms.foldl (fun w m => stMark m w) v = a at *
  have hua : (of a).u = 0 := by
    have : (of (heldAfter v ms).2).u = (of a).u := by
      show (of (ms.foldl (fun s m => applyMark m s) (lockedOf v, lockedOf v)).2).u = _
      rw [he]
    rw [← this, hu]
  have hoa := of_ok a
  cases b with
  | true =>
    have e1 := of_unlock_split (lv := (heldAfter v ms).2)
      (by have he' : of (heldAfter v ms).2 = { of a with w := 7 } := he
          rw [he']; simp) hu
    have e2 := of_unlockForSplit (lv := a) hua
    have : stCycle v ms = unlockForSplit a := by
      rw [stCycle, ha, stUnlock, isSplitting_iff]
      simp [hw, unlockForSplit]
    have he' : of (heldAfter v ms).2 = { of a with w := 7 } := he
    rw [this, e2, cycle, e1, he']
  | false =>
    have he' : of (heldAfter v ms).2 = { of a with w := 3 } := he
    have e1 := of_unlock_insert (lv := (heldAfter v ms).2) (by rw [he']; simp) hu
    have hadd : of (a + VINSERT) =
        { of a with u := (ctr a + 1) / 2 ^ 25, s := (ctr a + 1) / 64 % 2 ^ 19, i := (ctr a + 1) % 64 } := by
      have hc := ctr_lt a
      apply of_eq
      · constructor <;> first | exact hoa.l | exact hoa.r | exact hoa.d | exact hoa.w | (simp only; omega)
      · rw [BitVec.toNat_add, toNat_of a, show VINSERT.toNat = 8 from rfl]
        have := hoa.l; have := hoa.r; have := hoa.d; have := hoa.s; have := hoa.i; have := hoa.w
        simp only [enc, hua, ctr] at *
        omega
    have hs : (ctr a + 1) / 64 % 2 ^ 19 < 2 ^ 19 := Nat.mod_lt _ (by decide)
    have hi : (ctr a + 1) % 64 < 2 ^ 6 := Nat.mod_lt _ (by decide)
    have hctr : ctr (heldAfter v ms).2 = ctr a := by simp only [ctr, he']
    have : stCycle v ms = (a + VINSERT) &&& UNLOCK_MASK := by
      rw [stCycle, ha, stUnlock, isSplitting_iff]
      simp [hw]
    rw [this, of_and, hadd, of_UM, cycle, e1, hctr, he']
    simp only [map2, Nat.and_zero, and19 hs, and6 hi, and_one_bit hoa.l, and_one_bit hoa.r,
      and_one_bit hoa.d, hua]

example : stCycle (new true) [.split, .nonroot] = cycle (new true) [.split, .nonroot] := by decide

end Verif.NV
