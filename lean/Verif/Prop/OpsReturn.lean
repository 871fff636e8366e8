import Verif.Prop.OpsEnd
import Verif.Prop.OpsFail
import Verif.Proof.OpsLone2
set_option linter.unusedSimpArgs false
set_option linter.unusedVariables false
/-!
# C69: an insert that is the only one under way returns

`insert` has six loops: it climbs to the root of a layer, it goes down through the internodes and tries again when a version has changed, it
goes along the leaves to the one of its key, it comes back to the top after it has split a full leaf, it goes from layer to layer, and it goes
up with the new child of a split.  None of them goes on for ever if no other insert is under way.
-/
namespace Verif.Ops
open Verif.Internode (upd upd_same upd_ne)
open Verif.Spec (Bytes)
open Verif.Index (Al holds)
variable {V : Type} {fixed strict : Bool} {τ : Nat → St V} {β : Nat → Option (Act V)} {N : Nat}

/-- Where nobody holds anything, nothing is locked. -/
theorem none_still (E : Exec fixed strict τ β) (C : Clean strict τ β N) {n : Nat} (hn : n ≤ N) (L : Nat)
    (hu : (τ n).w.f.up L = true) (none : ∀ j, holds (((τ n).w.side L).ix.pc j) = []) : Still (L == 0) ((τ n).w.side L).ix.heap := by
  have K := E.know C hn
  have O := (K.ok.ok L (K.ok.basic.made L hu)).F
  have H : Index.HInv (L == 0) ((τ n).w.side L).ix.heap (fun n' => ∃ j, Index.right (((τ n).w.side L).ix.pc j) n')
    (fun n' => ∃ j, Index.busy (((τ n).w.side L).ix.pc j) n') := O.I.H
  have nr : ∀ q j, ¬ Index.right (((τ n).w.side L).ix.pc j) q := fun q j g => by
    have := Index.right_holds g; rw [none j] at this; cases this
  have nb : ∀ q j, ¬ Index.busy (((τ n).w.side L).ix.pc j) q := fun q j g => by
    have := none j
    cases e : ((τ n).w.side L).ix.pc j <;> rw [e] at g this <;> first | exact g.elim | simp [holds] at this
  refine ⟨⟨H.topAl, H.topPar, H.topRoot, fun g => g, H.rootAl, H.rootTop, H.kid, H.inj, H.nk, H.par, H.cells, H.next, fun q hq h0 => ?_,
    fun q hq _ => H.same q hq (fun ⟨j, g⟩ => nb q j g), H.low, H.spl⟩, O.O, fun q hq => ?_⟩
  · rcases H.orph q hq h0 with g | ⟨j, g⟩
    · exact .inl g
    · exact absurd g (nr q j)
  · cases e : (((τ n).w.side L).ix.heap.node q).locked with
    | false => rfl
    | true =>
      obtain ⟨j, hj⟩ := O.I.held q hq e
      have hj : q ∈ holds (((τ n).w.side L).ix.pc j) := hj
      rw [none j] at hj; cases hj

/-- Where the only insert holds nothing, nothing is locked. -/
theorem lone_still (E : Exec fixed strict τ β) (C : Clean strict τ β N) {n i : Nat} (hn : n ≤ N) (h : ∀ j, Inserting (τ n) j → j = i) (L : Nat)
    (hu : (τ n).w.f.up L = true) (hi : holds (((τ n).w.side L).ix.pc i) = []) : Still (L == 0) ((τ n).w.side L).ix.heap := by
  have Lk := E.locks C n hn
  have none : ∀ j, holds (((τ n).w.side L).ix.pc j) = [] := by
    intro j
    cases eo : (τ n).op j with
    | get d => exact no_holds (Lk.get j d eo L)
    | insert d v =>
      cases eb : ((τ n).ph j).over with
      | true => exact home_holds (over_home (E.phases C n hn j) eb L)
      | false =>
        have := h j ⟨eb, d, v, eo⟩
        subst this; exact hi
  exact none_still E C hn L hu none

/-- Marks in an execution. -/
theorem Exec.marked (E : Exec fixed strict τ β) (C : Clean strict τ β N) {n : Nat} (hn : n ≤ N) {L : Nat} (hm : (τ n).w.f.made L = true) :
    Chain.MarkOk ((τ n).w.f.layer L) := by
  have F := E.whole.forest C
  have e : Whole.upTo N (tree τ) n = (τ n).w.f := Whole.upTo_eq hn
  have hm' : (Whole.upTo N (tree τ) n).made L = true := by rw [e]; exact hm
  have h2 := (F.proj_exec hm').marks n
  rw [Forest.proj_eq hm', e] at h2
  exact h2

/-- Steps that leave the tree alone leave the rank alone. -/
theorem lone_keep {s s' : St V} {d : Bytes} {v : V} {i : Nat} (K : Know s.w) (F : Whole.Frame s.w s'.w i) (T : SameTree s s') {p : Ph V}
    (P : PutOk s.w d v i p) : (AimAt s.w i p → AimAt s'.w i p) ∧ rank s'.w d i p = rank s.w d i p := by
  have eb : ∀ L, Begins (s'.w.f.layer L) = Begins (s.w.f.layer L) := fun L => begins_eq (T.live L) fun x _ => by rw [T.leaf L]
  have el : ∀ L m x, inLayerRank s'.w d L m x = inLayerRank s.w d L m x := fun L m x => by unfold inLayerRank; rw [eb]
  have es : ∀ L, spot s'.w L i = spot s.w L i := fun L => by unfold spot; rw [F.pc L, F.ins L, T.node L]
  have ho : ∀ {L m x}, Own s.w d L m i x → (s'.w.f.layer L).hold x = (s.w.f.layer L).hold x := fun h =>
    (F.own _ _ (K.ok.basic.made _ h.place.up) h.owns).2
  cases p with
  | down L m =>
    refine ⟨fun A => ⟨?_, ?_, fun o r n g => ?_⟩, ?_⟩
    · rw [F.pc L]; exact A.1
    · rw [F.pc L, T.node L]; exact A.2.1
    · rw [F.pc L] at g
      have := A.2.2 o r n g
      rw [F.ins L]
      have e : ∀ x, Owner (s'.w.f.layer L) o.key x ↔ Owner (s.w.f.layer L) o.key x := fun x => by unfold Owner; rw [T.leaf L]
      cases e' : (s.w.side L).ins i <;> rw [e'] at this <;> simp only [AimIns, e, T.leaf L] at this ⊢ <;> exact this
    · show inLayerRank s'.w d L m (spot s'.w L i) = _
      rw [el, es]; rfl
  | undo L m x => exact ⟨fun A => A, rfl⟩
  | enter L m => exact ⟨fun A => A, el _ _ _⟩
  | freeze L m x sp => exact ⟨fun A => A, el _ _ _⟩
  | part L m x y =>
    refine ⟨fun A => A, ?_⟩
    show inLayerRank s'.w d L m (3, holdRank ((s'.w.f.layer L).hold x)) = _
    rw [el, ho P.1]; rfl
  | prop L m x y n =>
    refine ⟨fun A => A, ?_⟩
    show inLayerRank s'.w d L m (9, left ((s'.w.side L).ix.pc i) + (2 - n)) = _
    rw [el, F.pc L]; rfl
  | conv L m x =>
    refine ⟨fun A => A, ?_⟩
    obtain ⟨_, _, _, _, _, h, _⟩ := P
    show (0, 0, 0, 0, 3, holdRank ((s'.w.f.layer L).hold x)) = _
    rw [ho h]; rfl
  | drop L x a => cases a <;> exact ⟨fun A => A, rfl⟩
  | _ => exact ⟨fun A => A, rfl⟩

/-- A step of another thread. -/
theorem lone_other (E : Exec fixed strict τ β) {n i : Nat} {d : Bytes} {v : V} (C : Clean strict τ β (n + 1)) (ho : (τ n).op i = .insert d v)
    (hb : ((τ n).ph i).over = false) (h : ∀ j, Inserting (τ n) j → j = i) (hr : ¬ Runs β i n) :
    (τ (n + 1)).ph i = (τ n).ph i ∧ (AimAt (τ n).w i ((τ n).ph i) → AimAt (τ (n + 1)).w i ((τ n).ph i)) ∧
      rank (τ (n + 1)).w d i ((τ n).ph i) = rank (τ n).w d i ((τ n).ph i) := by
  have same : (τ (n + 1)).w = (τ n).w → (AimAt (τ n).w i ((τ n).ph i) → AimAt (τ (n + 1)).w i ((τ n).ph i)) ∧
      rank (τ (n + 1)).w d i ((τ n).ph i) = rank (τ n).w d i ((τ n).ph i) := fun e => by rw [e]; exact ⟨fun A => A, rfl⟩
  cases e : β n with
  | none =>
    have := (none_eq E e).1
    exact ⟨by rw [this], same (by rw [this])⟩
  | some x =>
    cases x with
    | call j o =>
      obtain ⟨k1, _, _, g⟩ := call_eq E e
      refine ⟨?_, same k1⟩
      rcases g with ⟨_, g⟩ | ⟨g, _, g2⟩
      · rw [g]
      · have : i ≠ j := by rintro rfl; rw [hb] at g; cases g
        rw [g2]; exact upd_ne _ _ _ this
    | run j y qs =>
      have hj : i ≠ j := by rintro rfl; exact hr ⟨y, qs, e⟩
      obtain ⟨k1, k2, k3, _, k5⟩ := run_eq E e
      refine ⟨by rw [k3]; exact upd_ne _ _ _ hj, ?_⟩
      have K := E.know C (n := n) (by omega)
      have P := E.phases C n (by omega) i
      rw [ho] at P
      have F := E.others C (n := n) (by omega) e hj
      cases eo : (τ n).op j with
      | get d' => exact lone_keep K F (C64_get_writes_nothing E C (by omega) eo ⟨y, qs, e⟩).1 P
      | insert d' v' =>
        have ov : ((τ n).ph j).over = true := by
          cases g : ((τ n).ph j).over with
          | true => rfl
          | false => exact absurd (h j ⟨g, d', v', eo⟩).symm hj
        refine same ?_
        rw [k1]
        have : (next (τ n) j y qs).1 = none := by
          unfold next
          cases g : (τ n).ph j <;> rw [g] at ov <;> cases ov
        rw [this]; rfl

/-- A step that changes something changes the tree or the place of the thread. -/
theorem run_changes (E : Exec fixed strict τ β) {n i y : Nat} {qs : List Nat} (e : β n = some (.run i y qs)) (ne : τ (n + 1) ≠ τ n) :
    (τ (n + 1)).w ≠ (τ n).w ∨ (τ (n + 1)).ph i ≠ (τ n).ph i := by
  obtain ⟨k1, k2, k3, k4, k5⟩ := run_eq E e
  have ep : (τ (n + 1)).ph i = (next (τ n) i y qs).2 := by rw [k3]; exact upd_same _ _ _
  rw [ep]
  refine Classical.byContradiction fun g => ?_
  obtain ⟨g1, g2⟩ := not_or.mp g
  have g1 := Classical.not_not.mp g1
  have g2 := Classical.not_not.mp g2
  apply ne
  have c0 : counted ((τ n).ph i) = 0 := by
    cases e' : (τ n).ph i <;> first | rfl | skip
    rw [e'] at g2
    unfold next at g2
    rw [e'] at g2
    cases g2
  rw [g2, Whole.upd_self] at k3
  rw [c0] at k4
  cases ea : τ (n + 1)
  cases eb : τ n
  rw [ea, eb] at g1 k2 k3 k4
  simp only at g1 k2 k3 k4
  subst g1 k2 k3 k4
  rfl

/-- An own step that changes something. -/
theorem lone_own (E : Exec fixed strict τ β) {n i : Nat} {d : Bytes} {v : V} (C : Clean strict τ β (n + 1)) (ho : (τ n).op i = .insert d v)
    (hb : ((τ n).ph i).over = false) (h : ∀ j, Inserting (τ n) j → j = i) (hr : Runs β i n) (ne : τ (n + 1) ≠ τ n)
    (A : AimAt (τ n).w i ((τ n).ph i)) :
    AimAt (τ (n + 1)).w i ((τ (n + 1)).ph i) ∧ Rank.lt (rank (τ (n + 1)).w d i ((τ (n + 1)).ph i)) (rank (τ n).w d i ((τ n).ph i)) := by
  obtain ⟨y, qs, e⟩ := hr
  obtain ⟨k1, k2, k3, k4, k5⟩ := run_eq E e
  have P := E.phases C n (by omega) i
  have P' := E.phases C (n + 1) (Nat.le_refl _) i
  rw [ho] at P
  rw [k2, ho, k3, upd_same] at P'
  have ep : (τ (n + 1)).ph i = (next (τ n) i y qs).2 := by rw [k3]; exact upd_same _ _ _
  have S := E.spread C n (by omega) i
  have Lk := (E.locks C n (by omega)).ok i
  have F : ∀ L o e, ((τ (n + 1)).w.side L).ix.pc i ≠ .fail o e := fun L o e => C.done (n + 1) (Nat.le_refl _) L i o e
  rw [ep]
  have ne' := run_changes E e ne
  rw [ep] at ne'
  rw [k1] at P' F ne' ⊢
  exact lone_step (E.know C (by omega)) ho hb P P' S Lk A (fun L _ _ hu hi => lone_still E C (by omega) h L hu hi)
    (fun L hm => E.marked C (by omega) hm) F ne'

/-- While nothing of its own happens, an insert stays where it is. -/
theorem lone_wait (E : Exec fixed strict τ β) {i a : Nat} {d : Bytes} {v : V} (C : ∀ n, Open τ β i (.insert d v) a n → Clean strict τ β (n + 1))
    (h : ∀ n, Open τ β i (.insert d v) a n → ∀ j, Inserting (τ n) j → j = i) {n : Nat} (ha : Open τ β i (.insert d v) a n) (A : AimAt (τ n).w i ((τ n).ph i)) :
    ∀ k, (∀ m, n ≤ m → m < n + k → ¬ (Runs β i m ∧ τ (m + 1) ≠ τ m)) →
      Open τ β i (.insert d v) a (n + k) ∧ AimAt (τ (n + k)).w i ((τ (n + k)).ph i) ∧
        rank (τ (n + k)).w d i ((τ (n + k)).ph i) = rank (τ n).w d i ((τ n).ph i)
  | 0, _ => ⟨ha, A, rfl⟩
  | k + 1, hk => by
    obtain ⟨h1, h2, h3⟩ := lone_wait E C h ha A k fun m g1 g2 => hk m g1 (by omega)
    have lt := ha.lt
    have hb := h1.busy (n + k) (by omega) (Nat.le_refl _)
    have ho := h1.op E (n + k) (by omega) (by omega)
    have more : ((τ (n + k + 1)).ph i).over = false → Open τ β i (.insert d v) a (n + k + 1) := fun g =>
      ⟨h1.call, h1.free, by omega, fun m g1 g2 => by
        by_cases e : m = n + k + 1
        · rw [e]; exact g
        · exact h1.busy m g1 (by omega)⟩
    by_cases g : Runs β i (n + k)
    · have e : τ (n + k + 1) = τ (n + k) := Classical.byContradiction fun g' => hk (n + k) (by omega) (by omega) ⟨g, g'⟩
      rw [show n + (k + 1) = n + k + 1 from rfl]
      refine ⟨more (by rw [e]; exact hb), ?_⟩
      rw [e]
      exact ⟨h2, h3⟩
    · obtain ⟨k1, k2, k3⟩ := lone_other E (C _ h1) ho hb (h _ h1) g
      rw [show n + (k + 1) = n + k + 1 from rfl]
      refine ⟨more (by rw [k1]; exact hb), ?_⟩
      rw [k1, k3]
      exact ⟨k2 h2, h3⟩

theorem lone_ends (E : Exec fixed strict τ β) {i a : Nat} {d : Bytes} {v : V} (C : ∀ n, Open τ β i (.insert d v) a n → Clean strict τ β (n + 1))
    (h : ∀ n, Open τ β i (.insert d v) a n → ∀ j, Inserting (τ n) j → j = i)
    (hr : ∀ n, Open τ β i (.insert d v) a n → ∃ m, n ≤ m ∧ Runs β i m ∧ τ (m + 1) ≠ τ m) (r : Rank) :
    ∀ n, Open τ β i (.insert d v) a n → AimAt (τ n).w i ((τ n).ph i) → rank (τ n).w d i ((τ n).ph i) = r →
      ∃ m, n ≤ m ∧ ((τ m).ph i).over = true := by
  classical
  induction r using Rank.wf.induction with
  | _ r ih =>
    intro n ha A er
    have ex : ∃ k, Runs β i (n + k) ∧ τ (n + k + 1) ≠ τ (n + k) := by
      obtain ⟨m, h1, h2, h3⟩ := hr n ha
      exact ⟨m - n, by rw [show n + (m - n) = m by omega]; exact ⟨h2, h3⟩⟩
    have hk := Nat.find_spec ex
    have hm : ∀ m, n ≤ m → m < n + Nat.find ex → ¬ (Runs β i m ∧ τ (m + 1) ≠ τ m) := fun m g1 g2 g3 => by
      refine Nat.find_min ex (m := m - n) (by omega) ?_
      rw [show n + (m - n) = m by omega]; exact g3
    generalize Nat.find ex = k at hk hm
    obtain ⟨h1, h2, h3⟩ := lone_wait E C h ha A k hm
    have lt := ha.lt
    obtain ⟨g1, g2⟩ := lone_own E (C _ h1) (h1.op E (n + k) (by omega) (by omega)) (h1.busy (n + k) (by omega) (Nat.le_refl _))
      (h _ h1) hk.1 hk.2 h2
    rw [h3, er] at g2
    cases e : ((τ (n + k + 1)).ph i).over with
    | true => exact ⟨n + k + 1, by omega, e⟩
    | false =>
      obtain ⟨m, j1, j2⟩ := ih _ g2 (n + k + 1) ⟨h1.call, h1.free, by omega, fun m g1 g2 => by
        by_cases e' : m = n + k + 1
        · rw [e']; exact e
        · exact h1.busy m g1 (by omega)⟩ g1 rfl
      exact ⟨m, by omega, j2⟩

/-- **C69.** An `insert` returns if no other insert is under way while it runs, and its thread goes on: as long as it has not returned, there
comes another step of its thread that changes something.  Lookups may be under way. -/
theorem C69_insert_returns (E : Exec fixed strict τ β) {i a : Nat} {d : Bytes} {v : V} (hc : β a = some (.call i (.insert d v)))
    (hf : ((τ a).ph i).over = true) (C : ∀ n, Open τ β i (.insert d v) a n → Clean strict τ β (n + 1))
    (h : ∀ n, Open τ β i (.insert d v) a n → ∀ j, Inserting (τ n) j → j = i)
    (hr : ∀ n, Open τ β i (.insert d v) a n → ∃ m, n ≤ m ∧ Runs β i m ∧ τ (m + 1) ≠ τ m) : ∃ b r, Call τ β i (.insert d v) a b r := by
  obtain ⟨_, _, _, g⟩ := call_eq E hc
  rcases g with ⟨g, _⟩ | ⟨_, g1, g2⟩
  · rw [hf] at g; cases g
  have ep : (τ (a + 1)).ph i = .enter 0 0 := by rw [g2]; exact upd_same _ _ _
  have ho : Open τ β i (.insert d v) a (a + 1) := by
    refine ⟨hc, hf, Nat.lt_succ_self a, fun m g1 g2 => ?_⟩
    have : m = a + 1 := by omega
    subst this
    rw [ep]; rfl
  obtain ⟨m, h1, h2⟩ := lone_ends E C h hr _ (a + 1) ho (by rw [ep]; trivial) rfl
  obtain ⟨b, r, _, _, h3⟩ := ho.returns E h1 h2
  exact ⟨b, r, h3⟩

/-- **C69** of the code as it is. -/
theorem C69_insert_returns_all (E : ExecAll fixed strict τ β) {i a : Nat} {d : Bytes} {v : V} (hc : β a = some (.call i (.insert d v)))
    (hf : ((τ a).ph i).over = true) (R : Regular τ β (a + 1)) (C : ∀ n, Open τ β i (.insert d v) a n → Clean strict τ β (n + 1) ∧ Regular τ β (n + 1))
    (h : ∀ n, Open τ β i (.insert d v) a n → ∀ j, Inserting (τ n) j → j = i)
    (hr : ∀ n, Open τ β i (.insert d v) a n → ∃ m, n ≤ m ∧ Runs β i m ∧ τ (m + 1) ≠ τ m) : ∃ b r, Call τ β i (.insert d v) a b r := by
  classical
  by_cases hx : ∃ k, ((τ (a + 1 + k)).ph i).over = true
  · have h1 := Nat.find_spec hx
    have h2 : ∀ k, k < Nat.find hx → ((τ (a + 1 + k)).ph i).over = false := fun k hk => by
      have := Nat.find_min hx hk
      cases e : ((τ (a + 1 + k)).ph i).over with
      | false => rfl
      | true => exact absurd e this
    generalize Nat.find hx = k at h1 h2
    cases k with
    | zero =>
      obtain ⟨E', A⟩ := E.plain R
      have A : Agree τ _ (a + 1) := A
      have h1 : ((τ (a + 1)).ph i).over = true := h1
      obtain ⟨_, _, _, g⟩ := call_eq E' hc
      rw [A a (by omega), A (a + 1) (by omega)] at g
      rcases g with ⟨g, _⟩ | ⟨_, g1, g2⟩
      · rw [hf] at g; cases g
      · rw [g2, upd_same] at h1; cases h1
    | succ k =>
      have ho : Open τ β i (.insert d v) a (a + 1 + k) := ⟨hc, hf, by omega, fun m g1 g2 => by
        have := h2 (m - (a + 1)) (by omega)
        rw [show a + 1 + (m - (a + 1)) = m by omega] at this; exact this⟩
      obtain ⟨E', A⟩ := E.plain (C _ ho).2
      have A : Agree τ _ (a + 1 + k + 1) := A
      obtain ⟨b, r, g1, g2, g3⟩ := (A.open' (by omega) ho).returns E' (m := a + 1 + k + 1) (by omega) (by rw [A _ (Nat.le_refl _)]; exact h1)
      have : b = a + 1 + k := by omega
      subst this
      exact ⟨_, r, ho, by rw [← A _ (Nat.le_refl _)]; exact g3.ends⟩
  · have open' : ∀ n, a < n → Open τ β i (.insert d v) a n := fun n hn => ⟨hc, hf, hn, fun m g1 g2 => by
      cases e : ((τ m).ph i).over with
      | false => rfl
      | true => exact absurd ⟨m - (a + 1), by rw [show a + 1 + (m - (a + 1)) = m by omega]; exact e⟩ hx⟩
    have Rn : ∀ n, Regular τ β n := fun n m hm => (C (a + 1 + n) (open' _ (by omega))).2 m (by omega)
    have e : ∀ n, Ops.plain fixed strict (τ 0) β n = τ n := fun n => (E.plain (Rn n)).2 n (Nat.le_refl n)
    have e : Ops.plain fixed strict (τ 0) β = τ := funext e
    have E' := (E.plain (Rn 0)).1
    rw [e] at E'
    exact C69_insert_returns E' hc hf (fun n g => (C n g).1) h hr

/-- **C69** of the code as it is, for calls made in turn: if no two calls overlap, every `insert` returns if its thread goes on. -/
theorem C69_in_turn_all (E : ExecAll fixed strict τ β) {i a : Nat} {d : Bytes} {v : V} (hc : β a = some (.call i (.insert d v)))
    (hf : ((τ a).ph i).over = true) (R : Regular τ β (a + 1))
    (T : ∀ n, Open τ β i (.insert d v) a n → InTurn τ (n + 1) ∧ Small τ (n + 1) ∧ Regular τ β (n + 1))
    (hr : ∀ n, Open τ β i (.insert d v) a n → ∃ m, n ≤ m ∧ Runs β i m ∧ τ (m + 1) ≠ τ m) : ∃ b r, Call τ β i (.insert d v) a b r := by
  refine C69_insert_returns_all E hc hf R (fun n g => ⟨?_, (T n g).2.2⟩) (fun n g j hj => ?_) hr
  · obtain ⟨t, s, r⟩ := T n g
    obtain ⟨E', A⟩ := E.plain r
    have A : Agree τ _ (n + 1) := A
    have t' := A.inTurn t
    exact A.symm.clean (Nat.le_refl _) (C65_in_turn_clean E' (n + 1) t' (C67_in_turn E' t' (A.small s)))
  · exact ((T n g).1 n (Nat.le_succ n) j i hj.1 (g.busy n g.lt (Nat.le_refl n)))

/-! ## Witness -/

set_option maxRecDepth 100000 in
/-- The insert that splits a full leaf, makes a root and starts again meets the hypotheses, of `C69_in_turn_all` and of the others. -/
theorem C69_witness :
    let τ := traceAll false false empty filled
    let β := fun n => filled[n]?
    ExecAll false false τ β ∧ β 408 = some (.call 0 (.insert (key8 100) 100)) ∧ ((τ 408).ph 0).over = true ∧ Regular τ β 409 ∧
      (∀ n, Open τ β 0 (.insert (key8 100) 100) 408 n → InTurn τ (n + 1) ∧ Small τ (n + 1) ∧ Regular τ β (n + 1) ∧ Clean false τ β (n + 1) ∧
        ∀ j, Inserting (τ n) j → j = 0) ∧
      (∀ n, Open τ β 0 (.insert (key8 100) 100) 408 n → ∃ m, n ≤ m ∧ Runs β 0 m ∧ τ (m + 1) ≠ τ m) ∧ nodes (τ 408) 0 + 2 = nodes (τ 473) 0 := by
  obtain ⟨E, R, T, S, c, h4⟩ := C67_in_turn_witness
  have A : Agree (trace false false empty filled) (traceAll false false empty filled) 473 := fun n hn => by
    rw [← plain_trace]; exact ((E.plain R).2 n hn).symm
  have C := A.clean (Nat.le_refl 473) filled_clean
  have lt : ∀ n, Open (traceAll false false empty filled) (fun n => filled[n]?) 0 (.insert (key8 100) 100) 408 n → n ≤ 472 := by
    intro n h
    refine Classical.byContradiction fun g => ?_
    have := h.busy 473 (by omega) (by omega)
    rw [c.ends] at this; cases this
  refine ⟨E, c.busy.call, c.busy.free, fun n hn => R n (by omega), fun n h => ?_, fun n h => ⟨472, lt n h, ⟨2, [], by with_unfolding_all rfl⟩, fun e => ?_⟩, ?_⟩
  · have := lt n h
    refine ⟨fun m hm => T m (by omega), fun m hm => S m (by omega), fun m hm => R m (by omega), Whole.Clean.sub C (by omega), fun j hj => ?_⟩
    exact T n (by omega) j 0 hj.1 (h.busy n h.lt (Nat.le_refl n))
  · have h1 := c.ends
    rw [e] at h1
    have h2 := c.busy.busy 472 (by omega) (Nat.le_refl _)
    rw [h1] at h2; cases h2
  · rw [h4]
    decide +kernel
end Verif.Ops
