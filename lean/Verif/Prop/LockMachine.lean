import Verif.Model.LockMachine
import Verif.Prop.NodeVersion
set_option linter.unusedSimpArgs false
set_option linter.unusedVariables false
/-!
Property C18: a node lock is exclusive under any interleaving of any number of threads.
-/
namespace Verif.NV
open F
attribute [local irreducible] F.of

/-- Two words agree on everything except possibly the root flag. -/
def eqModRoot (a b : W) : Prop := { of a with r := 0 } = { of b with r := 0 }

/-- What ownership by a thread in state `x` says about the word. -/
def Owned (w : W) : TS → Prop
  | .held lv => eqModRoot w lv ∧ ((of lv).w = 3 ∨ (of lv).w = 7)
  | .marking _ lv v => eqModRoot w lv ∧ eqModRoot w v ∧ ((of lv).w = 3 ∨ (of lv).w = 7)
  | .splitOwner => (of w).w = 5
  | .splitUnlocking v => eqModRoot w v ∧ (of w).w = 5
  | _ => True

structure LInv (s : LM) : Prop where
  uniq : ∀ t u, (s.ts t).owns = true → (s.ts u).owns = true → t = u
  unused : (of s.word).u = 0
  owned : ∀ t, Owned s.word (s.ts t)
  free : (∀ t, (s.ts t).owns = false) → (of s.word).w = 0
  want : ∀ t v, s.ts t = .want v → (of v).w = 0

theorem eqModRoot.low {a b : W} (h : eqModRoot a b) : (of a).w = (of b).w := by
  have := congrArg F.w h; simpa using this
theorem eqModRoot.unused {a b : W} (h : eqModRoot a b) : (of a).u = (of b).u := by
  have := congrArg F.u h; simpa using this
theorem eqModRoot.refl (a : W) : eqModRoot a a := rfl
theorem eqModRoot.trans {a b c : W} (h : eqModRoot a b) (h' : eqModRoot b c) : eqModRoot a c :=
  Eq.trans h h'
theorem eqModRoot.symm {a b : W} (h : eqModRoot a b) : eqModRoot b a := Eq.symm h

/-- An owner forces the lock bit. -/
theorem owned_low {w : W} {x : TS} (h : Owned w x) (ho : x.owns = true) :
    (of w).w = 3 ∨ (of w).w = 7 ∨ (of w).w = 5 := by
  cases x with
  | idle => simp [TS.owns] at ho
  | want v => simp [TS.owns] at ho
  | held lv => have := h.1.low; have := h.2; omega
  | marking m lv v => have := h.1.low; have := h.2.2; omega
  | splitOwner => exact Or.inr (Or.inr h)
  | splitUnlocking v => exact Or.inr (Or.inr h.2)

theorem owned_root {w w' : W} (h : eqModRoot w' w) {x : TS} (ho : Owned w x) : Owned w' x := by
  cases x with
  | idle => trivial
  | want v => trivial
  | held lv => exact ⟨h.trans ho.1, ho.2⟩
  | marking m lv v => exact ⟨h.trans ho.1, h.trans ho.2.1, ho.2.2⟩
  | splitOwner => exact h.low.trans ho
  | splitUnlocking v => exact ⟨h.trans ho.1, h.low.trans ho.2⟩

theorem eqModRoot_applyMark {m : Mark} {v lv : W} (h : eqModRoot v lv)
    (hw : (of lv).w = 3 ∨ (of lv).w = 7) :
    eqModRoot (applyMark m (v, lv)).1 (applyMark m (v, lv)).2 ∧
    ((of (applyMark m (v, lv)).2).w = 3 ∨ (of (applyMark m (v, lv)).2).w = 7) ∧
    (of (applyMark m (v, lv)).2).u = (of lv).u ∧
    (m = .insert → (applyMark m (v, lv)) = (v, lv)) := by
  have e1 := h.low
  have hv := of_ok v
  have hl := of_ok lv
  have hul := congrArg F.l h; have hud := congrArg F.d h; have huu := congrArg F.u h
  have hus := congrArg F.s h; have hui := congrArg F.i h
  simp only at hul hud huu hus hui
  cases m with
  | insert =>
    have : ((lv &&& INSERTING) == 0#32) = false := by
      rw [beq_eq_false_iff_ne, ne_eq, eq_zero_iff, of_and, of_INSERTING]
      simp only [map2]
      rcases hw with hw | hw <;> rw [hw] <;> simp
    simp only [applyMark, this, Bool.false_eq_true, if_false]
    exact ⟨h, hw, by simp⟩
  | split =>
    simp only [applyMark, eqModRoot, of_or, of_SPLITTING, map2, Nat.or_zero, e1, hul, hud, huu, hus,
      hui]
    refine ⟨by simp, Or.inr ?_, by simp, by simp⟩
    rcases hw with hw | hw <;> rw [hw] <;> rfl
  | deleted =>
    simp only [applyMark, eqModRoot, of_or, of_SPLITTING, of_DELETED, map2, Nat.or_zero, e1, huu]
    refine ⟨by simp, Or.inr ?_, by simp, by simp⟩
    rcases hw with hw | hw <;> rw [hw] <;> rfl
  | nonroot =>
    simp only [applyMark, eqModRoot, of_and, of_NROOT, map2, Nat.and_zero, e1, hul, hud, huu, hus,
      hui, and3 hl.w, and_one_bit hl.u]
    refine ⟨by simp, hw, by simp, by simp⟩

/-- Ownership after changing the state of one thread. -/
theorem owns_setT {s : LM} {t : Nat} {x : TS} (u : Nat) (h : u ≠ t) : s.setT t x u = s.ts u := by
  simp [LM.setT, h]
theorem setT_same {s : LM} {t : Nat} {x : TS} : s.setT t x t = x := by simp [LM.setT]

theorem LInv.step {s s' : LM} {t : Nat} (h : LInv s) (hs : LStep s t s') : LInv s' := by
  -- a step of an owner that stays owner: others do not own
  have others : (s.ts t).owns = true → ∀ u, u ≠ t → (s.ts u).owns = false := by
    intro ho u hu
    cases hx : (s.ts u).owns with
    | false => rfl
    | true => exact absurd (h.uniq u t hx ho) hu
  have ownTriv : ∀ (w : W) (x : TS), x.owns = false → Owned w x := by
    intro w x hx
    cases x <;> first | exact trivial | exact absurd hx (by simp [TS.owns])
  cases hs with
  | load hi hl =>
    rw [lockable_iff, decide_eq_true_eq] at hl
    refine ⟨?_, h.unused, ?_, fun _ => hl, ?_⟩
    · intro a b ha hb
      by_cases e1 : a = t
      · subst e1; simp [LM.setT, TS.owns] at ha
      · by_cases e2 : b = t
        · subst e2; simp [LM.setT, TS.owns] at hb
        · simp only [owns_setT _ e1, owns_setT _ e2] at ha hb
          exact h.uniq a b ha hb
    · intro u
      by_cases e : u = t
      · subst e; simp only [setT_same]; trivial
      · simp only [owns_setT _ e]; exact h.owned u
    · intro u v hu
      by_cases e : u = t
      · subst e
        simp only [setT_same, TS.want.injEq] at hu
        subst hu; exact hl
      · simp only [owns_setT _ e] at hu; exact h.want u v hu
  | casOk v hi he =>
    have hv0 := h.want t v hi
    have nobody : ∀ u, (s.ts u).owns = false := by
      intro u
      cases hx : (s.ts u).owns with
      | false => rfl
      | true =>
        have := owned_low (h.owned u) hx
        rw [he] at this; omega
    refine ⟨?_, ?_, ?_, ?_, ?_⟩
    · intro a b ha hb
      by_cases e1 : a = t
      · by_cases e2 : b = t
        · rw [e1, e2]
        · simp only [owns_setT _ e2, nobody] at hb; cases hb
      · simp only [owns_setT _ e1, nobody] at ha; cases ha
    · show (of (lockedOf v)).u = 0
      rw [of_lockedOf hv0, ← he]; exact h.unused
    · intro u
      by_cases e : u = t
      · subst e
        simp only [setT_same]
        exact ⟨rfl, Or.inl (by rw [of_lockedOf hv0])⟩
      · simp only [owns_setT _ e]; exact ownTriv _ _ (nobody u)
    · intro hf
      exact absurd (hf t) (by simp [setT_same, TS.owns])
    · intro u w hu
      by_cases e : u = t
      · subst e; exact absurd hu (by simp [setT_same])
      · simp only [owns_setT _ e] at hu; exact h.want u w hu
  | casFail v hi =>
    refine ⟨?_, h.unused, ?_, ?_, ?_⟩
    · intro a b ha hb
      by_cases e1 : a = t
      · subst e1; simp [LM.setT, TS.owns] at ha
      · by_cases e2 : b = t
        · subst e2; simp [LM.setT, TS.owns] at hb
        · simp only [owns_setT _ e1, owns_setT _ e2] at ha hb
          exact h.uniq a b ha hb
    · intro u
      by_cases e : u = t
      · subst e; simp only [setT_same]; trivial
      · simp only [owns_setT _ e]; exact h.owned u
    · intro hf
      apply h.free
      intro u
      by_cases e : u = t
      · subst e; rw [hi]; rfl
      · have := hf u; simpa only [owns_setT _ e] using this
    · intro u w hu
      by_cases e : u = t
      · subst e; exact absurd hu (by simp [setT_same])
      · simp only [owns_setT _ e] at hu; exact h.want u w hu
  | markLoad m lv hi =>
    have ho := h.owned t
    rw [hi] at ho
    have oth := others (by rw [hi]; rfl)
    refine ⟨?_, h.unused, ?_, ?_, ?_⟩
    · intro a b ha hb
      by_cases e1 : a = t
      · by_cases e2 : b = t
        · rw [e1, e2]
        · simp only [owns_setT _ e2, oth b e2] at hb; cases hb
      · simp only [owns_setT _ e1, oth a e1] at ha; cases ha
    · intro u
      by_cases e : u = t
      · subst e; simp only [setT_same]; exact ⟨ho.1, rfl, ho.2⟩
      · simp only [owns_setT _ e]; exact h.owned u
    · intro hf; exact absurd (hf t) (by simp [setT_same, TS.owns])
    · intro u w hu
      by_cases e : u = t
      · subst e; exact absurd hu (by simp [setT_same])
      · simp only [owns_setT _ e] at hu; exact h.want u w hu
  | markStore m lv v hi =>
    have ho := h.owned t
    rw [hi] at ho
    have oth := others (by rw [hi]; rfl)
    have hvl : eqModRoot v lv := ho.2.1.symm.trans ho.1
    obtain ⟨k1, k2, k3, k4⟩ := eqModRoot_applyMark (m := m) hvl ho.2.2
    have hword : eqModRoot (if m = .insert ∧ ((lv &&& INSERTING) == 0#32) = false then s.word
        else (applyMark m (v, lv)).1) (applyMark m (v, lv)).2 := by
      split
      · rename_i hc
        rw [k4 hc.1]; exact ho.1
      · exact k1
    have hlu : (of lv).u = 0 := by rw [← ho.1.unused]; exact h.unused
    refine ⟨?_, ?_, ?_, ?_, ?_⟩
    · intro a b ha hb
      by_cases e1 : a = t
      · by_cases e2 : b = t
        · rw [e1, e2]
        · simp only [owns_setT _ e2, oth b e2] at hb; cases hb
      · simp only [owns_setT _ e1, oth a e1] at ha; cases ha
    · show (of (if _ then _ else _)).u = 0
      rw [hword.unused, k3, hlu]
    · intro u
      by_cases e : u = t
      · subst e; simp only [setT_same]; exact ⟨hword, k2⟩
      · simp only [owns_setT _ e]; exact ownTriv _ _ (oth u e)
    · intro hf; exact absurd (hf t) (by simp [setT_same, TS.owns])
    · intro u w hu
      by_cases e : u = t
      · subst e; exact absurd hu (by simp [setT_same])
      · simp only [owns_setT _ e] at hu; exact h.want u w hu
  | drop lv hi =>
    have ho := h.owned t
    rw [hi] at ho
    have oth := others (by rw [hi]; rfl)
    have hlu : (of lv).u = 0 := by rw [← ho.1.unused]; exact h.unused
    have hun : (of (unlockOf lv)).w = 0 ∧ (of (unlockOf lv)).u = 0 := by
      rcases ho.2 with hw | hw
      · rw [of_unlock_insert (Or.inl hw) hlu]; exact ⟨rfl, hlu⟩
      · rw [of_unlock_split (by omega) hlu]; exact ⟨rfl, hlu⟩
    refine ⟨?_, hun.2, ?_, fun _ => hun.1, ?_⟩
    · intro a b ha hb
      by_cases e1 : a = t
      · subst e1; simp [LM.setT, TS.owns] at ha
      · simp only [owns_setT _ e1, oth a e1] at ha; cases ha
    · intro u
      by_cases e : u = t
      · subst e; simp only [setT_same]; trivial
      · simp only [owns_setT _ e]; exact ownTriv _ _ (oth u e)
    · intro u w hu
      by_cases e : u = t
      · subst e; exact absurd hu (by simp [setT_same])
      · simp only [owns_setT _ e] at hu; exact h.want u w hu
  | splitLoad hi =>
    have ho := h.owned t
    rw [hi] at ho
    have oth := others (by rw [hi]; rfl)
    refine ⟨?_, h.unused, ?_, ?_, ?_⟩
    · intro a b ha hb
      by_cases e1 : a = t
      · by_cases e2 : b = t
        · rw [e1, e2]
        · simp only [owns_setT _ e2, oth b e2] at hb; cases hb
      · simp only [owns_setT _ e1, oth a e1] at ha; cases ha
    · intro u
      by_cases e : u = t
      · subst e; simp only [setT_same]; exact ⟨rfl, ho⟩
      · simp only [owns_setT _ e]; exact h.owned u
    · intro hf; exact absurd (hf t) (by simp [setT_same, TS.owns])
    · intro u w hu
      by_cases e : u = t
      · subst e; exact absurd hu (by simp [setT_same])
      · simp only [owns_setT _ e] at hu; exact h.want u w hu
  | splitStore v hi =>
    have ho := h.owned t
    rw [hi] at ho
    have oth := others (by rw [hi]; rfl)
    have hvu : (of v).u = 0 := by rw [← ho.1.unused]; exact h.unused
    have e0 := of_unlockForSplit (lv := v) hvu
    refine ⟨?_, ?_, ?_, fun _ => ?_, ?_⟩
    · intro a b ha hb
      by_cases e1 : a = t
      · subst e1; simp [LM.setT, TS.owns] at ha
      · simp only [owns_setT _ e1, oth a e1] at ha; cases ha
    · show (of (unlockForSplit v)).u = 0
      rw [e0]; exact hvu
    · intro u
      by_cases e : u = t
      · subst e; simp only [setT_same]; trivial
      · simp only [owns_setT _ e]; exact ownTriv _ _ (oth u e)
    · show (of (unlockForSplit v)).w = 0
      rw [e0]
    · intro u w hu
      by_cases e : u = t
      · subst e; exact absurd hu (by simp [setT_same])
      · simp only [owns_setT _ e] at hu; exact h.want u w hu
  | setRoot =>
    have hr : eqModRoot (markRoot s.word) s.word := by simp [eqModRoot, of_markRoot]
    exact ⟨h.uniq, hr.unused.trans h.unused, fun u => owned_root hr (h.owned u),
      fun hf => hr.low.trans (h.free hf), h.want⟩
  | clearRoot =>
    have hr : eqModRoot (markNonroot s.word) s.word := by simp [eqModRoot, of_markNonroot]
    exact ⟨h.uniq, hr.unused.trans h.unused, fun u => owned_root hr (h.owned u),
      fun hf => hr.low.trans (h.free hf), h.want⟩

theorem LReach.inv {s : LM} (h : LReach s) : LInv s := by
  induction h with
  | init hi =>
    cases hi with
    | fresh b =>
      refine ⟨by simp [TS.owns], ?_, fun _ => trivial, ?_, by simp⟩
      · cases b <;> decide +kernel
      · intro _; cases b <;> decide +kernel
    | born src t =>
      refine ⟨?_, ?_, ?_, ?_, ?_⟩
      · intro a b ha hb
        by_cases e1 : a = t
        · by_cases e2 : b = t
          · rw [e1, e2]
          · simp [e2, TS.owns] at hb
        · simp [e1, TS.owns] at ha
      · show (of (newForSplit src)).u = 0
        rw [of_newForSplit]
      · intro u
        by_cases e : u = t
        · simp only [e, if_true]
          show (of (newForSplit src)).w = 5
          rw [of_newForSplit]
        · simp only [e, if_false]; trivial
      · intro hf; have := hf t; simp [TS.owns] at this
      · intro u v hu
        by_cases e : u = t <;> simp [e] at hu
  | step h hs ih => exact ih.step hs

/-- **C18.** In every reachable state at most one thread owns the node. -/
theorem C18_exclusive {s : LM} (h : LReach s) (t u : Nat)
    (ht : (s.ts t).owns = true) (hu : (s.ts u).owns = true) : t = u :=
  h.inv.uniq t u ht hu

/-- **C18.** The lock bit is set exactly while some thread owns the node: a lock is never lost
and never left behind. -/
theorem C18_lock_bit_iff_owned {s : LM} (h : LReach s) :
    isLocked s.word = true ↔ ∃ t, (s.ts t).owns = true := by
  rw [isLocked_iff, decide_eq_true_eq]
  constructor
  · intro hl
    by_cases hx : ∃ t, (s.ts t).owns = true
    · exact hx
    · have := h.inv.free (fun t => by
        cases e : (s.ts t).owns with
        | false => rfl
        | true => exact absurd ⟨t, e⟩ hx)
      omega
  · rintro ⟨t, ht⟩
    have := owned_low (h.inv.owned t) ht
    omega

/-- **C18.** While a thread owns the node no step of another thread changes anything in the word
except the root flag: counters, dirty bits, deleted mark and kind are the owner's alone. -/
theorem C18_only_owner_changes {s s' : LM} (h : LReach s) {t u : Nat} (hu : (s.ts u).owns = true)
    (htu : t ≠ u) (hs : LStep s t s') : eqModRoot s'.word s.word ∧ s'.ts u = s.ts u := by
  have nt : (s.ts t).owns = false := by
    cases hx : (s.ts t).owns with
    | false => rfl
    | true => exact absurd (h.inv.uniq t u hx hu) htu
  have hut : u ≠ t := fun e => htu e.symm
  cases hs with
  | load hi hl => exact ⟨rfl, owns_setT _ hut⟩
  | casOk v hi he =>
    have hv0 := h.inv.want t v hi
    have := owned_low (h.inv.owned u) hu
    rw [he] at this; omega
  | casFail v hi => exact ⟨rfl, owns_setT _ hut⟩
  | markLoad m lv hi => rw [hi] at nt; cases nt
  | markStore m lv v hi => rw [hi] at nt; cases nt
  | drop lv hi => rw [hi] at nt; cases nt
  | splitLoad hi => rw [hi] at nt; cases nt
  | splitStore v hi => rw [hi] at nt; cases nt
  | setRoot => exact ⟨by simp [eqModRoot, of_markRoot], rfl⟩
  | clearRoot => exact ⟨by simp [eqModRoot, of_markNonroot], rfl⟩

/-- **C18.** While the node is owned no reader's `stable` returns. -/
theorem C18_owned_not_stable {s : LM} (h : LReach s) {u : Nat} (hu : (s.ts u).owns = true) :
    stableOk s.word = false := by
  have := owned_low (h.inv.owned u) hu
  rw [stableOk_iff, decide_eq_false_iff_not]; omega

/-- **C18.** A free node can be locked: an idle thread that loads and swaps without interruption
gets the lock. -/
theorem C18_free_lock_available {s : LM} (h : LReach s) (hf : ∀ t, (s.ts t).owns = false)
    (t : Nat) (hi : s.ts t = .idle) :
    ∃ s1 s2, LStep s t s1 ∧ LStep s1 t s2 ∧ (s2.ts t).owns = true := by
  have hl : lockable s.word = true := by rw [lockable_iff, h.inv.free hf]; rfl
  exact ⟨_, _, .load s t hi hl, .casOk _ t s.word (by simp [LM.setT]) rfl, by simp [LM.setT, TS.owns]⟩

/-- Non-trivial instance: thread 7 holds the lock while thread 3 waits with a stale word. -/
example : ∃ s, LReach s ∧ (s.ts 7).owns = true ∧ ∃ v, s.ts 3 = .want v := by
  refine ⟨⟨lockedOf (new true), _⟩,
    .step (.step (.step (.init (.fresh true)) (.load _ 3 rfl (by decide))) (.load _ 7 rfl (by decide)))
      (.casOk _ 7 (new true) rfl rfl), ?_, new true, ?_⟩ <;> simp [LM.setT, TS.owns]

/-- The unguarded `mark_root` is lost when a guard is dropped afterwards: the guard stores a word
computed from its own copy. -/
theorem C18_unguarded_root_mark_lost : ∃ s1 s2 s3, LReach s1 ∧ LStep s1 5 s2 ∧
    isRoot s2.word = true ∧ LStep s2 7 s3 ∧ isRoot s3.word = false ∧ marksSplit [] = false :=
  ⟨⟨lockedOf (new true), _⟩, _, _,
    .step (.step (.init (.fresh true)) (.load _ 7 rfl (by decide))) (.casOk _ 7 (new true) rfl rfl),
    .setRoot _ 5, by decide, .drop _ 7 (lockedOf (new true)) rfl, by decide, rfl⟩

end Verif.NV
