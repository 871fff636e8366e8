import Verif.Proof.OpsSpread
set_option linter.unusedSimpArgs false
set_option linter.unusedVariables false
/-! The way of an insert through an index that nobody else changes: it comes to the leaf of its key, and it comes there in the end. -/
namespace Verif.Ops
open Verif.Internode (upd upd_same upd_ne)
open Verif.Index (Al HInv OInv PcOk inodeWidth maxRounds maxHops insertStores shiftStores)
variable {strict main : Bool}

/-- Nothing is locked and every node has its place. -/
structure Still (main : Bool) (h : Index.Heap Unit) : Prop where
  H : HInv main h (fun _ => False) (fun _ => False)
  O : OInv h
  free : ∀ q, Al h q → (h.node q).locked = false

/-- Node `p` is the one of its height that is responsible for the key `k`. -/
structure Best (h : Index.Heap Unit) (k p : Nat) : Prop where
  al : Al h p
  lo : (h.node p).lo ≤ k
  best : ∀ q, Al h q → (h.node q).ht = (h.node p).ht → (h.node q).lo ≤ k → (h.node q).lo ≤ (h.node p).lo

section
variable {h : Index.Heap Unit} {k : Nat}

/-- Every node but the root has a parent one level above. -/
theorem Still.parent (S : Still main h) {q : Nat} (hq : Al h q) (ht : q ≠ h.top) : Al h (h.node q).parent ∧
    (h.node (h.node q).parent).ht = (h.node q).ht + 1 ∧
    ∃ j, j ≤ (h.node (h.node q).parent).base.nkeys ∧ (h.node (h.node q).parent).base.child j = q := by
  have h0 : (h.node q).parent ≠ 0 := fun g => by
    rcases S.H.orph q hq g with g | g
    · exact ht g
    · exact g
  obtain ⟨h1, h2, j, h3, h4⟩ := S.H.par q hq h0
  have := (S.H.kid _ h1 h2 j h3).2.2
  rw [h4] at this
  exact ⟨h1, this.symm, j, h3, h4⟩

/-- The root is responsible for every key. -/
theorem Still.best_top (S : Still main h) : Best h k h.top := by
  refine ⟨S.H.topAl, by rw [S.O.topLo]; exact Nat.zero_le k, fun q hq e _ => ?_⟩
  by_cases g : q = h.top
  · rw [g]
  · obtain ⟨h1, h2, _⟩ := S.parent hq g
    have := S.H.low _ h1
    omega

theorem Still.lo_child (S : Still main h) {p j : Nat} (hp : Al h p) (hh : 0 < (h.node p).ht) (hj : j ≤ (h.node p).base.nkeys) :
    (h.node p).lo ≤ (h.node ((h.node p).base.child j)).lo := by
  cases j with
  | zero => exact Nat.le_of_eq (S.O.fst p hp hh).symm
  | succ j => rw [S.O.key p hp hh j (by omega)]; exact Nat.le_of_lt (S.O.abv p hp hh j (by omega))

/-- The child before the first key that is greater is the one that is responsible. -/
theorem Still.best_child (S : Still main h) {p i : Nat} (B : Best h k p) (hh : 0 < (h.node p).ht) (hi : i ≤ (h.node p).arr.nkeys)
    (h1 : ∀ j, j < i → (h.node p).arr.ikey j ≤ k) (h2 : ∀ j, i ≤ j → j < (h.node p).arr.nkeys → k < (h.node p).arr.ikey j) :
    Best h k ((h.node p).arr.child i) ∧ (h.node ((h.node p).arr.child i)).ht + 1 = (h.node p).ht := by
  rw [S.H.same p B.al (fun g => g)] at *
  obtain ⟨k1, k2, k3⟩ := S.H.kid p B.al hh i hi
  have lo : (h.node ((h.node p).base.child i)).lo ≤ k := by
    cases i with
    | zero => rw [S.O.fst p B.al hh]; exact B.lo
    | succ i => rw [S.O.key p B.al hh i (by omega)]; exact h1 i (by omega)
  refine ⟨⟨k1, lo, fun q hq e hl => ?_⟩, k3⟩
  have hnt : q ≠ h.top := by
    rintro rfl
    have := S.H.low p B.al
    omega
  obtain ⟨g1, g2, j, g3, g4⟩ := S.parent hq hnt
  have g5 : (h.node (h.node q).parent).ht = (h.node p).ht := by omega
  have hp' := S.lo_child g1 (by omega) g3
  rw [g4] at hp'
  have g6 := B.best _ g1 g5 (by omega)
  by_cases g7 : (h.node (h.node q).parent).lo = (h.node p).lo
  · have g8 := S.O.uniq _ _ g1 B.al g5 g7
    rw [g8] at g3 g4
    have hji : j ≤ i := by
      refine Classical.byContradiction fun g => ?_
      obtain ⟨j', rfl⟩ : ∃ j', j = j' + 1 := ⟨j - 1, by omega⟩
      have := S.O.key p B.al hh j' (by omega)
      rw [g4] at this
      have := h2 j' (by omega) (by omega)
      omega
    rcases Nat.lt_or_eq_of_le hji with g | g
    · rw [← g4]
      have up : (h.node ((h.node p).base.child i)).lo = (h.node p).base.ikey (i - 1) := by
        have := S.O.key p B.al hh (i - 1) (by omega)
        rw [show i - 1 + 1 = i by omega] at this; exact this
      rw [up]
      cases j with
      | zero => rw [S.O.fst p B.al hh]; exact Nat.le_of_lt (S.O.abv p B.al hh _ (by omega))
      | succ j => rw [S.O.key p B.al hh j (by omega)]; exact Nat.le_of_lt (S.O.srt p B.al hh _ _ (by omega) (by omega))
    · rw [← g4, g]
  · have g9 := S.O.keys _ _ g1 B.al (by omega) g5 (by omega)
    have low := S.lo_child B.al hh hi
    refine Nat.le_trans ?_ low
    rw [← g4]
    cases j with
    | zero => rw [S.O.fst _ g1 (by omega)]; exact g6
    | succ j => rw [S.O.key _ g1 (by omega) j (by omega)]; exact Nat.le_of_lt (g9 j (by omega))

/-- A descent is on the way to the leaf of its key. -/
def Aim (h : Index.Heap Unit) : Index.Pc Unit → Prop
  | .stab o _ p => Best h o.key p
  | .nk o _ p w => Best h o.key p ∧ 0 < (h.node p).ht ∧ w = ((h.node p).vs, (h.node p).vi)
  | .cmp o _ p w a b => Best h o.key p ∧ 0 < (h.node p).ht ∧ w = ((h.node p).vs, (h.node p).vi) ∧ a ≤ b ∧ b ≤ (h.node p).arr.nkeys ∧
      (∀ j, j < a → (h.node p).arr.ikey j ≤ o.key) ∧ (∀ j, b ≤ j → j < (h.node p).arr.nkeys → o.key < (h.node p).arr.ikey j)
  | .chld o _ p w i => Best h o.key p ∧ 0 < (h.node p).ht ∧ w = ((h.node p).vs, (h.node p).vi) ∧ i ≤ (h.node p).arr.nkeys ∧
      (∀ j, j < i → (h.node p).arr.ikey j ≤ o.key) ∧ (∀ j, i ≤ j → j < (h.node p).arr.nkeys → o.key < (h.node p).arr.ikey j)
  | .chk o _ p w c => Al h p ∧ w = ((h.node p).vs, (h.node p).vi) ∧ Best h o.key c ∧ (h.node c).ht + 1 = (h.node p).ht
  | .chk2 _ _ _ _ => False
  | .adv o _ g l => Best h o.key l ∧ g = maxHops
  | _ => True

/-- The descent of an insert. -/
def falls : Index.Pc Unit → Bool
  | .climb _ _ | .stab _ _ _ | .nk _ _ _ _ | .cmp _ _ _ _ _ _ | .chld _ _ _ _ _ | .chk _ _ _ _ _ => true
  | _ => false

/-- How far a descent has to go, in stages. -/
def fall (h : Index.Heap Unit) : Index.Pc Unit → Nat × Nat
  | .climb _ p => (7, (h.node h.top).ht - (h.node p).ht)
  | .stab _ _ p => (6, 100 * (h.node p).ht + 90)
  | .nk _ _ p _ => (6, 100 * (h.node p).ht + 80)
  | .cmp _ _ p _ a b => (6, 100 * (h.node p).ht + 10 + (b - a))
  | .chld _ _ p _ _ => (6, 100 * (h.node p).ht + 5)
  | .chk _ _ p _ _ => (6, 100 * (h.node p).ht + 2)
  | _ => (5, 0)

/-- One is before the other. -/
def Below (a b : Nat × Nat) : Prop := a.1 < b.1 ∨ a.1 = b.1 ∧ a.2 < b.2

/-- Steps of a descent in an index at rest. -/
theorem aim_step (S : Still main h) {pc : Index.Pc Unit} (ok : PcOk main h pc) (A : Aim h pc) (hf : falls pc = true) {t : Nat}
    (ho : pc.op = some (.insert t ())) :
    (Index.step strict main h pc).1 = h ∧ ((falls (Index.step strict main h pc).2 = true ∨ ∃ o r g l, (Index.step strict main h pc).2 = .adv o r g l) ∧
      Aim h (Index.step strict main h pc).2 ∧ Below (fall h (Index.step strict main h pc).2) (fall h pc)) := by
  cases pc with
  | climb o p =>
    refine ⟨rfl, ?_⟩
    simp only [Index.step]
    split
    · rename_i h0
      refine ⟨.inl rfl, ?_, .inl (Nat.lt_succ_self 6)⟩
      have : p = h.top := by
        rcases S.H.orph p ok h0 with g | g
        · exact g
        · exact g.elim
      rw [this]; exact S.best_top
    · rename_i h0
      refine ⟨.inl rfl, trivial, .inr ⟨rfl, ?_⟩⟩
      obtain ⟨h1, h2, i, h3, h4⟩ := S.H.par p ok h0
      have := (S.H.kid _ h1 h2 i h3).2.2
      rw [h4] at this
      have := S.H.low _ h1
      show _ - _ < _ - _
      omega
  | stab o r p =>
    have A : Best h o.key p := A
    simp only [Index.step, S.free p A.al, Bool.false_eq_true, if_false]
    split
    · rename_i h0
      cases o with
      | get t => cases ho
      | insert t v => exact ⟨rfl, .inr ⟨_, _, _, _, rfl⟩, ⟨A, rfl⟩, .inl (Nat.lt_succ_self 5)⟩
    · rename_i h0
      refine ⟨rfl, .inl rfl, ⟨A, by omega, rfl⟩, .inr ⟨rfl, ?_⟩⟩
      show _ + 80 < _ + 90
      omega
  | nk o r p w =>
    obtain ⟨A, h1, h2⟩ := A
    refine ⟨rfl, .inl rfl, ⟨A, h1, h2, Nat.zero_le _, Nat.le_refl _, by intro j hj; omega, by intro j g1 g2; omega⟩, .inr ⟨rfl, ?_⟩⟩
    have := S.H.nk p A.al
    rw [← S.H.same p A.al (fun g => g)] at this
    have e : inodeWidth = 15 := rfl
    show _ + 10 + (_ - 0) < _ + 80
    omega
  | cmp o r p w a b =>
    obtain ⟨A, h1, h2, h3, h4, h5, h6⟩ := A
    have srt : ∀ i j, i < j → j < (h.node p).arr.nkeys → (h.node p).arr.ikey i < (h.node p).arr.ikey j := by
      rw [S.H.same p A.al (fun g => g)]; exact S.O.srt p A.al h1
    have le : ∀ i j, i ≤ j → j < (h.node p).arr.nkeys → (h.node p).arr.ikey i ≤ (h.node p).arr.ikey j := by
      intro i j g1 g2
      rcases Nat.lt_or_eq_of_le g1 with g | g
      · exact Nat.le_of_lt (srt i j g g2)
      · rw [g]
    simp only [Index.step]
    split
    · rename_i hab
      split
      · rename_i hk
        refine ⟨rfl, .inl rfl, ⟨A, h1, h2, by omega, by omega, h5, fun j g1 g2 => ?_⟩, .inr ⟨rfl, ?_⟩⟩
        · exact Nat.lt_of_lt_of_le hk (le _ _ g1 g2)
        · show _ + 10 + _ < _ + 10 + _; omega
      · rename_i hk
        split
        · rename_i hk'
          refine ⟨rfl, .inl rfl, ⟨A, h1, h2, by omega, fun j g => ?_, fun j g1 g2 => ?_⟩, .inr ⟨rfl, ?_⟩⟩
          · rw [hk']; exact le _ _ (by omega) (by omega)
          · rw [hk']; exact srt _ _ (by omega) g2
          · show _ + 5 < _ + 10 + _; omega
        · rename_i hk'
          refine ⟨rfl, .inl rfl, ⟨A, h1, h2, by omega, by omega, fun j g => ?_, h6⟩, .inr ⟨rfl, ?_⟩⟩
          · refine Nat.le_trans (le j ((a + b) / 2) (by omega) (by omega)) ?_; omega
          · show _ + 10 + _ < _ + 10 + _; omega
    · refine ⟨rfl, .inl rfl, ⟨A, h1, h2, by omega, h5, fun j g1 g2 => h6 j (by omega) g2⟩, .inr ⟨rfl, ?_⟩⟩
      show _ + 5 < _ + 10 + _; omega
  | chld o r p w i =>
    obtain ⟨A, h1, h2, h3, h4, h5⟩ := A
    obtain ⟨k1, k2⟩ := S.best_child A h1 h3 h4 h5
    have hc : (h.node p).arr.child i ≠ 0 := Nat.pos_iff_ne_zero.1 k1.al.1
    simp only [Index.step, hc, if_false]
    refine ⟨trivial, .inl rfl, ⟨A.al, h2, k1, k2⟩, .inr ⟨rfl, ?_⟩⟩
    show _ + 2 < _ + 5; omega
  | chk o r p w c =>
    obtain ⟨A, h2, k1, k2⟩ := A
    have hs : (h.node p).splitting = false := by
      cases e : (h.node p).splitting with
      | false => rfl
      | true => have := S.H.spl p A e; rw [S.free p A] at this; cases this
    have : Index.changed strict (h.node p) w = false := by
      rw [h2]; simp [Index.changed, hs, S.free p A]
    simp only [Index.step, this, Bool.false_eq_true, if_false]
    refine ⟨trivial, .inl rfl, k1, .inr ⟨rfl, ?_⟩⟩
    show _ + 90 < _ + 2; omega
  | _ => cases hf

/-! ## The propagation of a split -/

/-- How many steps are left at most. -/
def left : Index.Pc Unit → Nat
  | .par c => (64 - c.rounds) * 100 + 97
  | .lck c _ => (64 - c.rounds) * 100 + 99
  | .rechk c _ => (64 - c.rounds) * 100 + 98
  | .ins c _ todo => (64 - c.rounds) * 100 + todo.length + 1
  | _ => 0

theorem shiftStores_length (a : Internode.Arr Nat) (p : Nat) : ∀ n, (shiftStores a p n).length = 2 * n
  | 0 => rfl
  | n + 1 => by simp only [shiftStores, List.length_cons, shiftStores_length a p n]; omega

/-- Steps of a propagation. -/
theorem left_step {pc : Index.Pc Unit} (hp : turning pc = true) (hc : ∀ o p, pc ≠ .climb o p) (hf : ∀ o e, (Index.step strict main h pc).2 ≠ .fail o e) :
    Index.step strict main h pc = (h, pc) ∨ left (Index.step strict main h pc).2 < left pc := by
  cases pc <;> first | (cases hp; done) | skip
  case climb o p => exact absurd rfl (hc o p)
  case par c =>
    have e64 : maxRounds = 64 := rfl
    right
    simp only [Index.step] at hf ⊢
    split
    · rename_i g; simp only [g, if_true] at hf; exact absurd rfl (hf _ _)
    · split
      · rename_i g g'
        simp only [g, g', if_true, if_false] at hf
        split
        · exact Nat.zero_lt_succ _
        · rename_i g2
          simp only [g2, if_false] at hf
          split
          · rename_i g3
            simp only [g3, if_true] at hf
            split
            · exact Nat.zero_lt_succ _
            · exact Nat.zero_lt_succ _
          · exact Nat.zero_lt_succ _
      · show (64 - (c.rounds + 1)) * 100 + 99 < (64 - c.rounds) * 100 + 97
        omega
  case lck c p =>
    simp only [Index.step]
    split
    · exact .inl rfl
    · exact .inr (Nat.lt_succ_self _)
  case rechk c p =>
    right
    simp only [Index.step]
    repeat' split
    · exact Nat.lt_succ_self _
    · exact Nat.zero_lt_succ _
    · exact Nat.lt_succ_self _
    · rename_i hw
      show (64 - c.rounds) * 100 + (insertStores _ _ _ _).length + 1 < (64 - c.rounds) * 100 + 98
      have e15 : inodeWidth = 15 := rfl
      simp only [insertStores, List.length_append, shiftStores_length, List.length_cons, List.length_nil]
      omega
    · exact Nat.lt_succ_self _
  case ins c p todo =>
    right
    cases todo with
    | nil => exact Nat.zero_lt_succ _
    | cons st todo => exact Nat.lt_succ_self _
end
end Verif.Ops
