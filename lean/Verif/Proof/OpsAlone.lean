import Verif.Proof.OpsTrack
set_option linter.unusedSimpArgs false
set_option linter.unusedVariables false
set_option linter.unusedSectionVars false
/-! A lookup that is under way when the last insert ends cannot go on for ever: no position is one at which it could be. -/
namespace Verif.Ops
open Verif.Internode (upd upd_same upd_ne)
open Verif.Spec (Bytes)
open Verif.Index (Al)
open Verif.Whole (Inside inIndex)
open Verif.Perm (size get)
variable {V : Type} {fixed strict : Bool} {τ : Nat → St V} {β : Nat → Option (Act V)} {i a n0 : Nat} {d : Bytes}

/-- A lookup under way for ever, without an insert from `n0` on. -/
structure Alone (fixed strict : Bool) (τ : Nat → St V) (β : Nat → Option (Act V)) (i a n0 : Nat) (d : Bytes) : Prop where
  E : Exec fixed strict τ β
  C : ∀ N, Clean strict τ β N
  op : ∀ n, n0 ≤ n → Open τ β i (.get d) a n
  few : ∀ n, n0 ≤ n → Forest.Few (Whole.leaves (tree τ)) a n
  hz : d = [] → ∀ j, a ≤ j → ¬ Forest.InTransit (τ j).w.f d
  quiet : ∀ n, n0 ≤ n → ∀ i, ¬ Inserting (τ n) i
  runs : ∀ n, ∃ m, n ≤ m ∧ Runs β i m

namespace Alone
variable (A : Alone fixed strict τ β i a n0 d) {n : Nat}
include A

theorem later {n1 : Nat} (h : n0 ≤ n1) : Alone fixed strict τ β i a n1 d :=
  ⟨A.E, A.C, fun n hn => A.op n (by omega), fun n hn => A.few n (by omega), A.hz, fun n hn => A.quiet n (by omega), A.runs⟩

theorem trk (hn : n0 ≤ n) : Trk (τ n).w d i ((τ n).ph i) :=
  (A.op n hn).track A.E (A.C _) (A.few n hn) (fun e j h1 _ => A.hz e j h1) n (A.op n hn).lt (Nat.le_succ n)

theorem know (hn : n0 ≤ n) : Know (τ n).w := A.E.know (A.C n) (Nat.le_refl n)

theorem rest (hn : n0 ≤ n) : ∀ L, (τ n).w.f.up L = true → Rest (τ n).w L := at_rest A.E (A.C n) (Nat.le_refl n) (A.quiet n hn)

theorem same (hn : n0 ≤ n) {n' : Nat} (h : n ≤ n') : Same (τ n).w (τ n').w := by
  obtain ⟨k, rfl⟩ := Nat.exists_eq_add_of_le h
  exact quiet_same A.E (A.C n) k fun m h1 _ => A.quiet m (by omega)

theorem wait {p : Pos V} : ∀ k n, n0 ≤ n → Runs β i (n + k) → p.ok (τ n).w → At (τ n) i d p → ∃ n1, n ≤ n1 ∧ Runs β i n1 ∧ At (τ n1) i d p
  | 0, n, hn, hr, _, h => ⟨n, Nat.le_refl n, hr, h⟩
  | k + 1, n, hn, hr, hp, h => by
    by_cases g : Runs β i n
    · exact ⟨n, Nat.le_refl n, g, h⟩
    · have h' := h.frame (A.know hn) hp (A.E.still (A.C (n + 1)) (Nat.lt_succ_self n) g) ((A.op n hn).other A.E (A.op n hn).lt (Nat.le_refl n) g)
      obtain ⟨n1, h1, h2, h3⟩ := wait k (n + 1) (by omega) (by rw [show n + 1 + k = n + (k + 1) by omega]; exact hr) (Pos.ok.same (A.same hn (Nat.le_succ n)) hp) h'
      exact ⟨n1, by omega, h2, h3⟩

theorem wait' {p : Pos V} (hn : n0 ≤ n) (h : At (τ n) i d p) (hp : p.ok (τ n).w) : ∃ n1, n ≤ n1 ∧ Runs β i n1 ∧ At (τ n1) i d p := by
  obtain ⟨m, h1, h2⟩ := A.runs n
  exact A.wait (m - n) n hn (by rw [show n + (m - n) = m by omega]; exact h2) hp h

/-- The next own step. -/
theorem go {p : Pos V} (w : Whole.St V) (hn : n0 ≤ n) (T : Same w (τ n).w) (hp : p.ok w) (h : At (τ n) i d p) :
    ∃ n', n < n' ∧ At (τ n') i d (pace fixed strict w d p) := by
  obtain ⟨n1, h1, ⟨y, qs, er⟩, h3⟩ := A.wait' hn h (Pos.ok.same T hp)
  refine ⟨n1 + 1, by omega, ?_⟩
  have hs : τ (n1 + 1) = act fixed strict (τ n1) (.run i y qs) := by
    have := A.E.steps n1
    rw [er] at this; exact this
  have P := A.E.phases (A.C n1) n1 (Nat.le_refl _) i
  have ho := (A.op n1 (by omega)).op A.E n1 (A.op n1 (by omega)).lt (Nat.le_succ _)
  rw [ho] at P
  rw [hs]
  exact at_step (T.trans (A.same hn h1)) (A.know (by omega)) ho P hp h3

theorem of_ends {w : Whole.St V} {k : Nat} {p : Pos V} (h : Ends fixed strict w d k p) : ∀ n, n0 ≤ n → Same w (τ n).w → At (τ n) i d p → False := by
  induction h with
  | over =>
    intro n hn _ h
    have h : ((τ n).ph i).over = true := h
    rw [(A.op n hn).busy n (A.op n hn).lt (Nat.le_refl n)] at h
    cases h
  | step hp _ ih =>
    intro n hn T h
    obtain ⟨n', h1, h2⟩ := A.go w hn T hp h
    exact ih n' (by omega) (T.trans (A.same hn (Nat.le_of_lt h1))) h2

theorem of_end {p : Pos V} (hn : n0 ≤ n) (h : End fixed strict (τ n).w d p) (hA : At (τ n) i d p) : False := by
  obtain ⟨k, h⟩ := h
  exact A.of_ends h n hn (Same.refl _) hA

/-- A position after whose next step the lookup could not be where it is. -/
theorem next {p : Pos V} (hn : n0 ≤ n) (h : At (τ n) i d p) (hp : p.ok (τ n).w)
    (f : ∀ n', n0 ≤ n' → n < n' → Same (τ n).w (τ n').w → At (τ n') i d (pace fixed strict (τ n).w d p) → False) : False := by
  obtain ⟨n', h1, h2⟩ := A.go _ hn (Same.refl _) hp h
  exact f n' (by omega) h1 (A.same hn (Nat.le_of_lt h1)) h2

theorem not_enter (hn : n0 ≤ n) {L m : Nat} : ¬ At (τ n) i d (.enter L m) := fun h => by
  have W := A.trk hn
  rw [show (τ n).ph i = .enter L m from h] at W
  exact A.of_end hn (end_enter (A.know hn) (A.rest hn) _ L m (Nat.le_refl _) W) h

theorem read_ok (hn : n0 ≤ n) {L m : Nat} {c : Chain.CPc V} (h : At (τ n) i d (.read L m c)) : Where (τ n).w d L m ∧ RdOk ((τ n).w.f.layer L) (kat d m) c := by
  have W := A.trk hn
  rw [h.1] at W
  obtain ⟨W1, W2⟩ := W
  rw [h.2] at W2
  exact ⟨W1, W2⟩

theorem not_done (hn : n0 ≤ n) {L m : Nat} {k : Key} {r : Race.Out V} {w : Bool} : ¬ At (τ n) i d (.read L m (.done k r w)) := fun h => by
  have W := (A.read_ok hn h).1
  obtain ⟨n1, h1, ⟨y, qs, er⟩, h3⟩ := A.wait' hn h W.up
  have e : (τ (n1 + 1)).ph i = answer m r := by
    rw [(run_eq A.E er).2.2.1, upd_same]
    unfold Ops.next; rw [h3.1]; dsimp only; rw [h3.2]
  have hb := (A.op (n1 + 1) (by omega)).busy (n1 + 1) (A.op (n1 + 1) (by omega)).lt (Nat.le_refl _)
  have hs := (A.op n1 (by omega)).sound A.E (A.C _) (A.few n1 (by omega)) (fun e j h1 _ => A.hz e j h1)
  rw [e] at hb hs
  cases r with
  | value v => cases hb
  | absent => cases hb
  | misread => exact hs rfl
  | descend q => exact A.not_enter (n := n1 + 1) (by omega) (L := q) (m := m + 1) e

theorem not_stable (hn : n0 ≤ n) {L m x : Nat} {k : Key} : ¬ At (τ n) i d (.read L m (.leaf x (.stable k))) := fun h => by
  obtain ⟨W, h1, h2⟩ := A.read_ok hn h
  have h2 : k = kat d m := h2
  subst h2
  exact A.of_end hn (end_leaf (A.know hn) (A.rest hn L W.up) W (fun q hq => end_enter (A.know hn) (A.rest hn) _ q (m + 1) (Nat.le_refl _) hq) _ x h1 (Nat.le_refl _)) h

theorem not_bound (hn : n0 ≤ n) {L m x z : Nat} {k : Key} : ¬ At (τ n) i d (.read L m (.bound x k z)) := fun h => by
  refine A.next hn h (A.read_ok hn h).1.up fun n' h1 _ _ h2 => ?_
  simp only [pace, Chain.cstep] at h2
  split at h2
  · exact A.not_stable h1 h2
  · exact A.not_done h1 h2

theorem not_next (hn : n0 ≤ n) {L m x : Nat} {k : Key} : ¬ At (τ n) i d (.read L m (.next x k)) := fun h => by
  refine A.next hn h (A.read_ok hn h).1.up fun n' h1 _ _ h2 => ?_
  simp only [pace, Chain.cstep] at h2
  split at h2
  · split at h2
    · exact A.not_stable h1 h2
    · exact A.not_done h1 h2
  · split at h2
    · exact A.not_done h1 h2
    · exact A.not_bound h1 h2

theorem not_dirty (hn : n0 ≤ n) {L m x : Nat} {k : Key} : ¬ At (τ n) i d (.read L m (.leaf x (.dirty k))) := fun h => by
  refine A.next hn h (A.read_ok hn h).1.up fun n' h1 _ _ h2 => ?_
  simp only [pace, Chain.cstep] at h2
  split at h2
  · exact A.not_stable h1 h2
  · exact A.not_next h1 h2

theorem not_found (hn : n0 ≤ n) {L m x : Nat} {k : Key} {r : Race.Out V} : ¬ At (τ n) i d (.read L m (.leaf x (.done k r))) := fun h => by
  refine A.next hn h (A.read_ok hn h).1.up fun n' h1 _ _ h2 => ?_
  exact A.not_done h1 h2

/-- Only a change brings the lookup on from the check. -/
theorem check_step (hn : n0 ≤ n) {L m x : Nat} {k : Key} {v : NV.W} {s : Option (Nat × Tree.Cell V)} (h : At (τ n) i d (.read L m (.leaf x (.check k v s)))) :
    NV.hasChanged v (((τ n).w.f.layer L).leaf x).word = true ∧ ∃ n', n < n' ∧ At (τ n') i d (.read L m (.adv1 x k v)) := by
  obtain ⟨n', h1, h2⟩ := A.go _ hn (Same.refl _) (p := .read L m (.leaf x (.check k v s))) (A.read_ok hn h).1.up h
  simp only [pace, Chain.cstep] at h2
  split at h2
  · rename_i g; exact ⟨g, n', h1, h2⟩
  · rename_i g
    simp only [Race.rstep, g] at h2
    exfalso
    cases s with
    | none => exact A.not_dirty (n := n') (by omega) h2
    | some s => exact A.not_found (n := n') (by omega) h2

/-- If the check cannot be passed the search before cannot be under way either. -/
theorem not_ikey {L m x : Nat} {k : Key} {v : NV.W} {p : BitVec 128} (hv : ∀ n, n0 ≤ n → ∀ s, ¬ At (τ n) i d (.read L m (.leaf x (.check k v s)))) :
    ∀ c j n, n0 ≤ n → size 5 p ≤ j + c → ¬ At (τ n) i d (.read L m (.leaf x (.ikey k v p j)))
  | 0, j, n, hn, hc, h => by
    refine A.next hn h (A.read_ok hn h).1.up fun n' h1 _ _ h2 => ?_
    simp only [pace, Chain.cstep, Race.rstep, if_neg (show ¬ j < size 5 p by omega)] at h2
    exact hv n' h1 _ h2
  | c + 1, j, n, hn, hc, h => by
    have ih : ∀ n, n0 ≤ n → ¬ At (τ n) i d (.read L m (.leaf x (.ikey k v p (j + 1)))) := fun n hn => not_ikey hv c (j + 1) n hn (by omega)
    have suf : ∀ n cc, n0 ≤ n → ¬ At (τ n) i d (.read L m (.leaf x (.suf k v p j cc))) := fun n cc hn h => by
      refine A.next hn h (A.read_ok hn h).1.up fun n' h1 _ _ h2 => ?_
      simp only [pace, Chain.cstep, Race.rstep] at h2
      split at h2
      · exact hv n' h1 _ h2
      · exact ih n' h1 h2
    have sufK : ∀ n cc, n0 ≤ n → ¬ At (τ n) i d (.read L m (.leaf x (.sufKlx k v p j cc))) := fun n cc hn h => by
      refine A.next hn h (A.read_ok hn h).1.up fun n' h1 _ _ h2 => ?_
      simp only [pace, Chain.cstep, Race.rstep] at h2
      split at h2
      · exact suf n' _ h1 h2
      · exact ih n' h1 h2
    have ptr : ∀ n y, n0 ≤ n → ¬ At (τ n) i d (.read L m (.leaf x (.ptr k v p j y))) := fun n y hn h => by
      refine A.next hn h (A.read_ok hn h).1.up fun n' h1 _ _ h2 => ?_
      simp only [pace, Chain.cstep, Race.rstep] at h2
      split at h2
      · exact ih n' h1 h2
      · split at h2
        · split at h2
          · exact sufK n' _ h1 h2
          · exact hv n' h1 _ h2
        · split at h2
          · exact hv n' h1 _ h2
          · exact ih n' h1 h2
    have klx : ∀ n, n0 ≤ n → ¬ At (τ n) i d (.read L m (.leaf x (.klx k v p j))) := fun n hn h => by
      refine A.next hn h (A.read_ok hn h).1.up fun n' h1 _ _ h2 => ?_
      simp only [pace, Chain.cstep, Race.rstep] at h2
      exact ptr n' _ h1 h2
    refine A.next hn h (A.read_ok hn h).1.up fun n' h1 _ _ h2 => ?_
    simp only [pace, Chain.cstep, Race.rstep] at h2
    split at h2
    · split at h2
      · exact klx n' h1 h2
      · exact ih n' h1 h2
    · exact hv n' h1 _ h2

theorem not_perm {L m x : Nat} {k : Key} {v : NV.W} (hv : ∀ n, n0 ≤ n → ∀ s, ¬ At (τ n) i d (.read L m (.leaf x (.check k v s)))) (hn : n0 ≤ n) :
    ¬ At (τ n) i d (.read L m (.leaf x (.perm k v))) := fun h => by
  refine A.next hn h (A.read_ok hn h).1.up fun n' h1 _ _ h2 => ?_
  simp only [pace, Chain.cstep] at h2
  split at h2
  · exact A.not_stable h1 h2
  · exact A.not_ikey hv _ 0 n' h1 (by rw [Nat.zero_add]) h2

/-- With the word as it is. -/
theorem not_perm_cur (hn : n0 ≤ n) {L m x : Nat} {k : Key} {v : NV.W} (hv : (((τ n).w.f.layer L).leaf x).word = v) :
    ¬ At (τ n) i d (.read L m (.leaf x (.perm k v))) := fun h => by
  have up := (A.read_ok hn h).1.up
  refine (A.later hn).not_perm (n := n) (fun n1 h1 s h2 => ?_) (Nat.le_refl n) h
  have g := (A.check_step (n := n1) (by omega) h2).1
  rw [(A.same hn h1).leaf L up, hv, hasChanged_self] at g
  cases g

theorem not_ret {L m x0 x : Nat} {k : Key} {ver : NV.W} (hn : n0 ≤ n) (hv : x = x0 → ¬ At (τ n) i d (.read L m (.leaf x0 (.perm k ver)))) :
    ¬ At (τ n) i d (.read L m (Chain.advRet x0 x k ver)) := fun h => by
  unfold Chain.advRet at h
  split at h
  · rename_i e; exact hv e h
  · exact A.not_stable hn h

theorem not_adv4 {L m x0 : Nat} : ∀ c x n, n0 ≤ n → (kat d m).ikey - (((τ n).w.f.layer L).leaf x).lo ≤ c → ∀ k, ¬ At (τ n) i d (.read L m (.adv4 x0 x k)) := by
  intro c
  induction c with
  | zero =>
    intro x n hn hc k h
    exact go4 0 (fun x n hn hlt => absurd hlt (Nat.not_lt_zero _)) x n hn hc k h
  | succ c ih =>
    intro x n hn hc k h
    exact go4 (c + 1) (fun x n hn hlt k => ih x n hn (by omega) k) x n hn hc k h
where
  go4 (c : Nat) (ih : ∀ x n, n0 ≤ n → (kat d m).ikey - (((τ n).w.f.layer L).leaf x).lo < c → ∀ k, ¬ At (τ n) i d (.read L m (.adv4 x0 x k)))
      (x n : Nat) (hn : n0 ≤ n) (hc : (kat d m).ikey - (((τ n).w.f.layer L).leaf x).lo ≤ c) (k : Key) (h : At (τ n) i d (.read L m (.adv4 x0 x k))) : False := by
    obtain ⟨W, l0, l1, rfl⟩ := A.read_ok hn h
    have R := A.rest hn L W.up
    refine A.next hn h W.up fun n1 h1 _ T1 h2 => ?_
    simp only [pace, Chain.cstep, (R.word x l1).1] at h2
    simp only [Bool.false_eq_true, if_false] at h2
    have ew : ((τ n).w.f.layer L).leaf = ((τ n1).w.f.layer L).leaf := (T1.leaf L W.up).symm
    rw [ew] at h2 hc
    obtain ⟨W1, _, l1', _⟩ := A.read_ok h1 h2
    refine A.next h1 h2 W1.up fun n2 h3 _ T2 h4 => ?_
    have ew2 : ((τ n1).w.f.layer L).leaf = ((τ n2).w.f.layer L).leaf := (T2.leaf L W1.up).symm
    simp only [pace, Chain.cstep, ((A.rest h1 L W1.up).word x l1').2] at h4
    simp only [Bool.false_eq_true, if_false] at h4
    split at h4
    · exact A.not_ret h3 (fun e => by subst e; exact A.not_perm_cur h3 (by rw [ew2])) h4
    · rename_i hnx
      obtain ⟨_, lt⟩ := ((A.know h1).ok.ok L ((A.know h1).ok.basic.made L W1.up)).C.link x l1' hnx
      have lt : (((τ n1).w.f.layer L).leaf x).lo < (((τ n1).w.f.layer L).leaf (((τ n1).w.f.layer L).leaf x).nx).lo := lt
      rw [ew2] at h4 hc lt
      obtain ⟨W2, _⟩ := A.read_ok h3 h4
      refine A.next h3 h4 W2.up fun n3 h5 _ T3 h6 => ?_
      have ew3 : ((τ n2).w.f.layer L).leaf = ((τ n3).w.f.layer L).leaf := (T3.leaf L W2.up).symm
      simp only [pace, Chain.cstep] at h6
      rw [ew3] at h6 hc lt
      split at h6
      · rename_i le
        exact ih _ n3 h5 (by omega) _ h6
      · exact A.not_ret h5 (fun e => by subst e; exact A.not_perm_cur h5 rfl) h6

theorem not_adv1 (hn : n0 ≤ n) {L m x : Nat} {k : Key} {v : NV.W} : ¬ At (τ n) i d (.read L m (.adv1 x k v)) := fun h => by
  obtain ⟨W, l0, rfl⟩ := A.read_ok hn h
  refine A.next hn h W.up fun n1 h1 _ T1 h2 => ?_
  simp only [pace, Chain.cstep, ((A.rest hn L W.up).word x l0).1] at h2
  simp only [Bool.false_eq_true, if_false] at h2
  have ew : ((τ n).w.f.layer L).leaf = ((τ n1).w.f.layer L).leaf := (T1.leaf L W.up).symm
  rw [ew] at h2
  have W1 := (A.read_ok h1 h2).1
  refine A.next h1 h2 W1.up fun n2 h3 _ T2 h4 => ?_
  simp only [pace, Chain.cstep] at h4
  have ew2 : ((τ n1).w.f.layer L).leaf = ((τ n2).w.f.layer L).leaf := (T2.leaf L W1.up).symm
  rw [ew2] at h4
  split at h4
  · exact A.not_adv4 _ x n2 h3 (Nat.le_refl _) _ h4
  · have W2 := (A.read_ok h3 h4).1
    refine A.next h3 h4 W2.up fun n3 h5 _ T3 h6 => ?_
    simp only [pace, Chain.cstep] at h6
    have ew3 : ((τ n2).w.f.layer L).leaf = ((τ n3).w.f.layer L).leaf := (T3.leaf L W2.up).symm
    rw [ew3] at h6
    split at h6
    · exact A.not_adv4 _ x n3 h5 (Nat.le_refl _) _ h6
    · exact A.not_ret h5 (fun _ => A.not_perm_cur h5 rfl) h6

theorem not_check (hn : n0 ≤ n) {L m x : Nat} {k : Key} {v : NV.W} {s : Option (Nat × Tree.Cell V)} : ¬ At (τ n) i d (.read L m (.leaf x (.check k v s))) := fun h => by
  obtain ⟨n', h1, h2⟩ := (A.check_step hn h).2
  exact A.not_adv1 (n := n') (by omega) h2

/-- In the leaves the lookup cannot be. -/
theorem not_read (hn : n0 ≤ n) {L m : Nat} (c : Chain.CPc V) : ¬ At (τ n) i d (.read L m c) := fun h => by
  have hv : ∀ x k v n, n0 ≤ n → ∀ s, ¬ At (τ n) i d (.read L m (.leaf x (.check k v s))) := fun x k v n hn s => A.not_check hn
  have perm : ∀ x k v n, n0 ≤ n → ¬ At (τ n) i d (.read L m (.leaf x (.perm k v))) := fun x k v n hn => A.not_perm (hv x k v) hn
  have ikey : ∀ x k v p j n, n0 ≤ n → ¬ At (τ n) i d (.read L m (.leaf x (.ikey k v p j))) := fun x k v p j n hn =>
    A.not_ikey (hv x k v) (size 5 p) j n hn (by omega)
  have ret : ∀ x0 x k v n, n0 ≤ n → ¬ At (τ n) i d (.read L m (Chain.advRet x0 x k v)) := fun x0 x k v n hn => A.not_ret hn fun _ => perm x0 k v n hn
  have adv4 : ∀ x0 x k n, n0 ≤ n → ¬ At (τ n) i d (.read L m (.adv4 x0 x k)) := fun x0 x k n hn => A.not_adv4 _ x n hn (Nat.le_refl _) k
  have adv3 : ∀ x k v n, n0 ≤ n → ¬ At (τ n) i d (.read L m (.adv3 x k v)) := fun x k v n hn h => by
    refine A.next hn h (A.read_ok hn h).1.up fun n' h1 _ _ h2 => ?_
    simp only [pace, Chain.cstep] at h2
    split at h2
    · exact adv4 _ _ _ n' h1 h2
    · exact ret _ _ _ _ n' h1 h2
  have adv6 : ∀ x0 x k v z n, n0 ≤ n → ¬ At (τ n) i d (.read L m (.adv6 x0 x k v z)) := fun x0 x k v z n hn h => by
    refine A.next hn h (A.read_ok hn h).1.up fun n' h1 _ _ h2 => ?_
    simp only [pace, Chain.cstep] at h2
    split at h2
    · exact adv4 _ _ _ n' h1 h2
    · exact ret _ _ _ _ n' h1 h2
  have suf : ∀ x k v p j cc n, n0 ≤ n → ¬ At (τ n) i d (.read L m (.leaf x (.suf k v p j cc))) := fun x k v p j cc n hn h => by
    refine A.next hn h (A.read_ok hn h).1.up fun n' h1 _ _ h2 => ?_
    simp only [pace, Chain.cstep, Race.rstep] at h2
    split at h2
    · exact A.not_check h1 h2
    · exact ikey _ _ _ _ _ n' h1 h2
  have sufK : ∀ x k v p j cc n, n0 ≤ n → ¬ At (τ n) i d (.read L m (.leaf x (.sufKlx k v p j cc))) := fun x k v p j cc n hn h => by
    refine A.next hn h (A.read_ok hn h).1.up fun n' h1 _ _ h2 => ?_
    simp only [pace, Chain.cstep, Race.rstep] at h2
    split at h2
    · exact suf _ _ _ _ _ _ n' h1 h2
    · exact ikey _ _ _ _ _ n' h1 h2
  have ptr : ∀ x k v p j y n, n0 ≤ n → ¬ At (τ n) i d (.read L m (.leaf x (.ptr k v p j y))) := fun x k v p j y n hn h => by
    refine A.next hn h (A.read_ok hn h).1.up fun n' h1 _ _ h2 => ?_
    simp only [pace, Chain.cstep, Race.rstep] at h2
    split at h2
    · exact ikey _ _ _ _ _ n' h1 h2
    · split at h2
      · split at h2
        · exact sufK _ _ _ _ _ _ n' h1 h2
        · exact A.not_check h1 h2
      · split at h2
        · exact A.not_check h1 h2
        · exact ikey _ _ _ _ _ n' h1 h2
  have hok := A.read_ok hn h
  cases c with
  | idle => exact hok.2
  | done k r w => exact A.not_done hn h
  | next x k => exact A.not_next hn h
  | bound x k z => exact A.not_bound hn h
  | adv1 x k v => exact A.not_adv1 hn h
  | adv2 x k v w =>
    refine A.next hn h hok.1.up fun n' h1 _ _ h2 => ?_
    simp only [pace, Chain.cstep] at h2
    split at h2
    · exact adv4 _ _ _ n' h1 h2
    · exact adv3 _ _ _ n' h1 h2
  | adv3 x k v => exact adv3 _ _ _ n hn h
  | adv4 x0 x k => exact adv4 _ _ _ n hn h
  | adv5 x0 x k v =>
    refine A.next hn h hok.1.up fun n' h1 _ _ h2 => ?_
    simp only [pace, Chain.cstep, ((A.rest hn L hok.1.up).word x hok.2.2.1).2] at h2
    simp only [Bool.false_eq_true, if_false] at h2
    split at h2
    · exact ret _ _ _ _ n' h1 h2
    · exact adv6 _ _ _ _ _ n' h1 h2
  | adv6 x0 x k v z => exact adv6 _ _ _ _ _ n hn h
  | leaf x p =>
    cases p with
    | idle => exact hok.2.2
    | stable k => exact A.not_stable hn h
    | perm k v => exact perm _ _ _ n hn h
    | ikey k v p j => exact ikey _ _ _ _ _ n hn h
    | klx k v p j =>
      refine A.next hn h hok.1.up fun n' h1 _ _ h2 => ?_
      simp only [pace, Chain.cstep, Race.rstep] at h2
      exact ptr _ _ _ _ _ _ n' h1 h2
    | ptr k v p j y => exact ptr _ _ _ _ _ _ n hn h
    | sufKlx k v p j c => exact sufK _ _ _ _ _ _ n hn h
    | suf k v p j c => exact suf _ _ _ _ _ _ n hn h
    | check k v s => exact A.not_check hn h
    | dirty k => exact A.not_dirty hn h
    | done k r => exact A.not_found hn h

/-- On the way down. -/
theorem down_ok (hn : n0 ≤ n) {L m : Nat} {q : Index.Pc Unit} (h : At (τ n) i d (.down L m q)) : Where (τ n).w d L m ∧ Index.PcOk (L == 0) ((τ n).w.side L).ix.heap q ∧
    GetPc q ∧ (∀ o, q.op = some o → o.key = (kat d m).ikey) ∧ (Pos.down L m q : Pos V).ok (τ n).w ∧ q ≠ .idle ∧ (∀ o x, q ≠ .done o x) ∧ (∀ o e, q ≠ .fail o e) := by
  have W := A.trk hn
  obtain ⟨h1, h2, h3⟩ := h
  rw [h1] at W
  obtain ⟨W1, W2, W3, W4⟩ := W
  have K := A.know hn
  have O := K.ok.ok L (K.ok.basic.made L W1.up)
  have pk : Index.PcOk (L == 0) ((τ n).w.side L).ix.heap (((τ n).w.side L).ix.pc i) := O.F.I.ok i
  have ky := O.key i
  have gp := (A.E.locks (A.C n) n (Nat.le_refl n)).get i d ((A.op n hn).op A.E n (A.op n hn).lt (Nat.le_succ _)) L
  have fn := K.fine L i
  unfold Inside at W3
  rw [h2] at pk gp W4 W3
  refine ⟨W1, pk, gp, fun o ho => ?_, ⟨W1.up, W4⟩, W3.1, W3.2, fun o e g => fn o e (h2.trans g)⟩
  have := ky o (by rw [show ((τ n).w.lay L).s.ix.pc i = q from h2]; exact ho)
  rw [this, show ((τ n).w.lay L).s.key i = kat d m from h3]

theorem leafs (hn : n0 ≤ n) {L m : Nat} (W : Where (τ n).w d L m) : ∀ x, ((τ n).w.f.layer L).live x = true →
    End fixed strict (τ n).w d (.read L m (.leaf x (.stable (kat d m)))) := fun x hx =>
  end_leaf (A.know hn) (A.rest hn L W.up) W (fun q hq => end_enter (A.know hn) (A.rest hn) _ q (m + 1) (Nat.le_refl _) hq) _ x hx (Nat.le_refl _)

theorem not_stab (hn : n0 ≤ n) {L m r p : Nat} {o : Index.Op Unit} : ¬ At (τ n) i d (.down L m (.stab o r p)) := fun h => by
  obtain ⟨W, pk, ⟨t, rfl⟩, ky, _⟩ := A.down_ok hn h
  have : t = (kat d m).ikey := ky _ rfl
  subst this
  exact A.of_end hn (end_stab (A.know hn) (A.rest hn L W.up) (A.leafs hn W) _ r p pk.2 (Nat.le_refl _)) h

theorem not_climb (hn : n0 ≤ n) {L m p : Nat} {o : Index.Op Unit} : ¬ At (τ n) i d (.down L m (.climb o p)) := fun h => by
  obtain ⟨W, pk, ⟨t, rfl⟩, ky, _⟩ := A.down_ok hn h
  have : t = (kat d m).ikey := ky _ rfl
  subst this
  exact A.of_end hn (end_climb (A.know hn) (A.rest hn L W.up) (A.leafs hn W) _ p pk (Nat.le_refl _)) h

theorem not_chk2 (hn : n0 ≤ n) {L m r p : Nat} {w : Nat × Nat} {o : Index.Op Unit} : ¬ At (τ n) i d (.down L m (.chk2 o r p w)) := fun h => by
  refine A.next hn h (A.down_ok hn h).2.2.2.2.1 fun n' h1 _ _ h2 => ?_
  simp only [pace, Index.step] at h2
  split at h2
  · exact A.not_stab h1 h2
  · exact A.not_stab h1 h2

theorem not_chk (hn : n0 ≤ n) {L m r p c : Nat} {w : Nat × Nat} {o : Index.Op Unit} : ¬ At (τ n) i d (.down L m (.chk o r p w c)) := fun h => by
  refine A.next hn h (A.down_ok hn h).2.2.2.2.1 fun n' h1 _ _ h2 => ?_
  simp only [pace, Index.step] at h2
  split at h2
  · exact A.not_chk2 h1 h2
  · exact A.not_stab h1 h2

theorem not_chld (hn : n0 ≤ n) {L m r p j : Nat} {w : Nat × Nat} {o : Index.Op Unit} : ¬ At (τ n) i d (.down L m (.chld o r p w j)) := fun h => by
  refine A.next hn h (A.down_ok hn h).2.2.2.2.1 fun n' h1 _ _ h2 => ?_
  simp only [pace, Index.step] at h2
  split at h2
  · exact A.not_stab h1 h2
  · exact A.not_chk h1 h2

theorem not_cmp {L m r p : Nat} {w : Nat × Nat} {o : Index.Op Unit} : ∀ c x y n, n0 ≤ n → y ≤ x + c → ¬ At (τ n) i d (.down L m (.cmp o r p w x y))
  | 0, x, y, n, hn, hc, h => by
    refine A.next hn h (A.down_ok hn h).2.2.2.2.1 fun n' h1 _ _ h2 => ?_
    simp only [pace, Index.step, if_neg (show ¬ x < y by omega)] at h2
    exact A.not_chld h1 h2
  | c + 1, x, y, n, hn, hc, h => by
    refine A.next hn h (A.down_ok hn h).2.2.2.2.1 fun n' h1 _ _ h2 => ?_
    simp only [pace, Index.step] at h2
    split at h2
    · rename_i hxy
      split at h2
      · exact not_cmp c _ _ n' h1 (by omega) h2
      · split at h2
        · exact A.not_chld h1 h2
        · exact not_cmp c _ _ n' h1 (by omega) h2
    · exact A.not_chld h1 h2

/-- On the way down it cannot be. -/
theorem not_down (hn : n0 ≤ n) {L m : Nat} (q : Index.Pc Unit) : ¬ At (τ n) i d (.down L m q) := fun h => by
  obtain ⟨W, pk, gp, ky, hok, g1, g2, g3⟩ := A.down_ok hn h
  cases q with
  | idle => exact g1 rfl
  | done o x => exact g2 o x rfl
  | fail o e => exact g3 o e rfl
  | climb o p => exact A.not_climb hn h
  | stab o r p => exact A.not_stab hn h
  | chk2 o r p w => exact A.not_chk2 hn h
  | chk o r p w c => exact A.not_chk hn h
  | chld o r p w j => exact A.not_chld hn h
  | cmp o r p w x y => exact A.not_cmp y x y n hn (by omega) h
  | nk o r p w =>
    refine A.next hn h hok fun n' h1 _ _ h2 => ?_
    exact A.not_cmp _ 0 _ n' h1 (by rw [Nat.zero_add]) h2
  | look o l =>
    refine A.next hn h hok fun n' h1 _ _ h2 => ?_
    exact A.not_stable h1 h2
  | nxt o l => rcases hok.2 with g | ⟨_, _, g⟩ <;> cases g
  | _ => exact gp

/-- No lookup is under way for ever. -/
theorem never : False := by
  have h := A.op n0 (Nat.le_refl _)
  have hb := h.busy n0 h.lt (Nat.le_refl _)
  have P := A.E.phases (A.C n0) n0 (Nat.le_refl _) i
  have T := A.trk (Nat.le_refl n0)
  have hs := (A.op n0 (Nat.le_refl _)).op A.E n0 h.lt (Nat.le_succ _)
  rw [hs] at P
  have P : GetOk (τ n0).w i ((τ n0).ph i) := P
  cases e : (τ n0).ph i with
  | idle => rw [e] at hb; cases hb
  | ret r => rw [e] at hb; cases hb
  | enter L m => exact A.not_enter (Nat.le_refl _) (L := L) (m := m) e
  | down L m =>
    rw [e] at T
    exact A.not_down (Nat.le_refl _) _ ⟨e, rfl, T.2.1⟩
  | read L m => exact A.not_read (Nat.le_refl _) _ ⟨e, rfl⟩
  | err =>
    obtain ⟨n, rfl⟩ : ∃ n, n0 = n + 1 := ⟨n0 - 1, by have := h.lt; omega⟩
    by_cases g : n = a
    · subst g
      rw [h.starts A.E] at e; cases e
    · have hl := h.lt
      have ho : Open τ β i (.get d) a n := ⟨h.call, h.free, by omega, fun m g1 g2 => h.busy m g1 (by omega)⟩
      exact ho.sound A.E (A.C _) ((A.few (n + 1) (Nat.le_refl _)).sub (Nat.le_refl _) (by omega) (by omega)) (fun e j h1 _ => A.hz e j h1) e
  | _ => rw [e] at P; exact absurd P id
end Alone
end Verif.Ops
