import Verif.Prop.OpsAll
import Verif.Proof.OpsLocks4
set_option linter.unusedSimpArgs false
set_option linter.unusedVariables false
/-!
# C64: no call leaves a lock behind

The guard of a lock is dropped on every way out of `insert`: when the leaf turns out to be the wrong one, after an update, after a new
slot is published, after a layer is made, when a full leaf cannot be split, and for both halves of a split once their parent is right.
-/
namespace Verif.Ops
open Verif.Internode (upd upd_same upd_ne)
open Verif.Spec (Bytes)
variable {V : Type} {fixed strict : Bool} {τ : Nat → St V} {β : Nat → Option (Act V)} {N : Nat}

/-- There is a leaf `x` in layer `L`, reachable or about to be linked. -/
def HasLeaf (s : St V) (L x : Nat) : Prop := s.w.f.made L = true ∧ (s.w.f.layer L).used x = true

/-- The version word of leaf `x` has the lock bit. -/
def LeafLocked (s : St V) (L x : Nat) : Prop := HasLeaf s L x ∧ NV.isLocked ((s.w.f.layer L).leaf x).word = true

/-- Node `q` above the leaves of layer `L` is locked. -/
def NodeLocked (s : St V) (L q : Nat) : Prop :=
  s.w.f.made L = true ∧ 0 < q ∧ q < (s.w.side L).ix.heap.fresh ∧ ((s.w.side L).ix.heap.node q).locked = true

theorem word_clear {w : NV.W} (h : NV.lockable w = true) : NV.isLocked w = false ∧ NV.isDirty w = false := by
  have e : w &&& (NV.LOCK ||| NV.DIRTY) = 0#32 := by simpa [NV.lockable] using h
  have e1 : w &&& NV.LOCK = (w &&& (NV.LOCK ||| NV.DIRTY)) &&& NV.LOCK := by
    rw [BitVec.and_assoc, show (NV.LOCK ||| NV.DIRTY) &&& NV.LOCK = NV.LOCK from by decide]
  have e2 : w &&& NV.DIRTY = (w &&& (NV.LOCK ||| NV.DIRTY)) &&& NV.DIRTY := by
    rw [BitVec.and_assoc, show (NV.LOCK ||| NV.DIRTY) &&& NV.DIRTY = NV.DIRTY from by decide]
  rw [e] at e1 e2
  constructor
  · rw [NV.isLocked, e1]; decide
  · rw [NV.isDirty, e2]; decide

theorem getPc_holds {p : Index.Pc Unit} (h : GetPc p) : Index.holds p = [] := by
  cases p <;> first | rfl | exact absurd h id

/-- **C64.** Whenever no insert is under way, nothing is locked or marked: no version word of a leaf has the lock bit or a dirty bit,
no next pointer is marked, and no internode is locked.  Lookups may be under way. -/
theorem C64_no_lock_left (E : Exec fixed strict τ β) (C : Clean strict τ β N) {n : Nat} (hn : n ≤ N) (h : ∀ i, ¬ Inserting (τ n) i) (L : Nat) :
    (∀ x, HasLeaf (τ n) L x → NV.isLocked (((τ n).w.f.layer L).leaf x).word = false ∧ NV.isDirty (((τ n).w.f.layer L).leaf x).word = false ∧
      (((τ n).w.f.layer L).leaf x).mark = false) ∧ ∀ q, ¬ NodeLocked (τ n) L q := by
  have H := E.locks C n hn
  have P := E.phases C n hn
  refine ⟨fun x hx => ?_, fun q hq => ?_⟩
  · have hf : ((τ n).w.f.layer L).hold x = .free := by
      refine Classical.byContradiction fun g => ?_
      obtain ⟨i, hi⟩ := H.keep L x hx.1 g
      exact h i (keeps_runs (P i) (fun d e => H.get i d e) hi)
    obtain ⟨h1, h2⟩ := E.leaf_free C hn hx.1 hx.2 hf
    exact ⟨(word_clear h1).1, (word_clear h1).2, h2⟩
  · obtain ⟨h1, h2, h3, h4⟩ := hq
    obtain ⟨i, hi⟩ := ((E.know C hn).ok.ok L h1).F.I.held q ⟨h2, h3⟩ h4
    have hp : Index.holds (((τ n).w.side L).ix.pc i) = [] := by
      cases eo : (τ n).op i with
      | get d => exact getPc_holds (H.get i d eo L)
      | insert d v =>
        have ho : ((τ n).ph i).over = true := by
          cases g : ((τ n).ph i).over with
          | true => rfl
          | false => exact absurd ⟨g, d, v, eo⟩ (h i)
        rcases out_cases (over_home (P i) ho L).out with g | ⟨o, r, g⟩ <;> rw [g] <;> rfl
    rw [show ((τ n).w.lay L).s.ix.pc i = ((τ n).w.side L).ix.pc i from rfl, hp] at hi
    cases hi

/-- **C64.** At any time, a leaf is locked only while an insert is under way. -/
theorem C64_lock_has_owner (E : Exec fixed strict τ β) (C : Clean strict τ β N) {n : Nat} (hn : n ≤ N) {L x : Nat} (h : LeafLocked (τ n) L x) :
    ∃ i, Inserting (τ n) i := by
  refine Classical.byContradiction fun g => ?_
  have := ((C64_no_lock_left E C hn (fun i hi => g ⟨i, hi⟩) L).1 x h.1).1
  rw [h.2] at this; cases this

/-- **C64.** At any time there are at most two locked leaves for each insert under way. -/
theorem C64_two_leaves_per_insert (E : Exec fixed strict τ β) (C : Clean strict τ β N) {n : Nat} (hn : n ≤ N) {ls : List (Nat × Nat)} (hd : ls.Nodup)
    (hl : ∀ a, a ∈ ls → LeafLocked (τ n) a.1 a.2) {ts : List Nat} (ht : ∀ i, Inserting (τ n) i → i ∈ ts) : ls.length ≤ 2 * ts.length := by
  have H := E.locks C n hn
  have P := E.phases C n hn
  have sub : ls ⊆ ts.flatMap (fun i => kept (τ n).w i ((τ n).ph i)) := by
    intro a ha
    obtain ⟨⟨h1, h2⟩, h3⟩ := hl a ha
    have hf : ((τ n).w.f.layer a.1).hold a.2 ≠ .free := by
      intro g
      have := (word_clear (E.leaf_free C hn h1 h2 g).1).1
      rw [h3] at this; cases this
    obtain ⟨i, hi⟩ := H.keep a.1 a.2 h1 hf
    exact List.mem_flatMap.2 ⟨i, ht i (keeps_runs (P i) (fun d e => H.get i d e) hi), keeps_mem hi⟩
  have len : ∀ ts : List Nat, (ts.flatMap (fun i => kept (τ n).w i ((τ n).ph i))).length ≤ 2 * ts.length := by
    intro ts
    induction ts with
    | nil => simp
    | cons t ts ih =>
      rw [List.flatMap_cons, List.length_append, List.length_cons]
      have := kept_length (τ n).w t ((τ n).ph t)
      omega
  exact Nat.le_trans (hd.length_le_of_subset sub) (len ts)

/-- A step of a lookup in the internodes writes nothing. -/
theorem getPc_heap {main : Bool} {h : Index.Heap Unit} {p : Index.Pc Unit} (hp : GetPc p) (hi : Whole.inIndex p = true) :
    (Index.step strict main h p).1 = h := by
  cases p with
  | idle => rfl
  | done => rfl
  | look => cases hi
  | nxt => cases hi
  | fail => rfl
  | climb o p => rfl
  | stab o r p =>
    obtain ⟨t, rfl⟩ := hp
    simp only [Index.step]
    split
    · rfl
    · split <;> rfl
  | nk o r p w => rfl
  | cmp o r p w a b =>
    simp only [Index.step]
    split
    · split
      · rfl
      · split <;> rfl
    · rfl
  | chld o r p w a => rfl
  | chk o r p w c => rfl
  | chk2 o r p w => rfl
  | _ => exact absurd hp id

/-- Two trees with the same leaves, layers and internodes. -/
structure SameTree (s s' : St V) : Prop where
  made : s'.w.f.made = s.w.f.made
  leaf : ∀ L, (s'.w.f.layer L).leaf = (s.w.f.layer L).leaf
  used : ∀ L, (s'.w.f.layer L).used = (s.w.f.layer L).used
  live : ∀ L, (s'.w.f.layer L).live = (s.w.f.layer L).live
  node : ∀ L, (s'.w.side L).ix.heap = (s.w.side L).ix.heap

/-- **C64.** No step of a lookup writes to the tree: lookups take no lock. -/
theorem C64_get_writes_nothing (E : Exec fixed strict τ β) (C : Clean strict τ β N) {n i : Nat} (hn : n ≤ N) {d : Bytes} (ho : (τ n).op i = .get d)
    (hr : Runs β i n) : SameTree (τ n) (τ (n + 1)) ∧ (τ (n + 1)).count = (τ n).count := by
  obtain ⟨y, qs, e⟩ := hr
  obtain ⟨ew, _, _, ec, _⟩ := run_eq E e
  have H := E.locks C n hn
  have P := E.phases C n hn i
  have G := H.get i d ho
  rw [ho] at P
  have P : GetOk (τ n).w i ((τ n).ph i) := P
  have same : (τ (n + 1)).w = (τ n).w → SameTree (τ n) (τ (n + 1)) := fun g =>
    ⟨by rw [g], fun L => by rw [g], fun L => by rw [g], fun L => by rw [g], fun L => by rw [g]⟩
  have step : ∀ L a, (τ (n + 1)).w = Whole.act fixed strict (τ n).w (.inLayer L a) →
      (∀ b, Whole.onLeaves ((τ n).w.lay L) a = some b → (Whole.raw fixed ((τ n).w.f.layer L) b).leaf = ((τ n).w.f.layer L).leaf ∧
        (Whole.raw fixed ((τ n).w.f.layer L) b).used = ((τ n).w.f.layer L).used ∧ (Whole.raw fixed ((τ n).w.f.layer L) b).live = ((τ n).w.f.layer L).live) →
      (Whole.beside strict (L == 0) ((τ n).w.lay L) a).ix.heap = ((τ n).w.side L).ix.heap → SameTree (τ n) (τ (n + 1)) := by
    intro L a ew hb hh
    cases hu : (τ n).w.f.up L with
    | false => exact same (by rw [ew]; simp only [Whole.act, hu]; rfl)
    | true =>
      have hl : (Whole.lact fixed strict (L == 0) ((τ n).w.lay L) a).c.leaf = ((τ n).w.f.layer L).leaf ∧
          (Whole.lact fixed strict (L == 0) ((τ n).w.lay L) a).c.used = ((τ n).w.f.layer L).used ∧
          (Whole.lact fixed strict (L == 0) ((τ n).w.lay L) a).c.live = ((τ n).w.f.layer L).live := by
        unfold Whole.lact
        cases eo : Whole.onLeaves ((τ n).w.lay L) a with
        | none => exact ⟨rfl, rfl, rfl⟩
        | some b => exact hb b eo
      refine ⟨?_, fun K => ?_, fun K => ?_, fun K => ?_, fun K => ?_⟩
      · rw [ew]; funext K; exact post_made hu _ K
      · rw [ew, post_layer hu]
        by_cases g : K = L
        · subst g; rw [if_pos rfl]; exact hl.1
        · rw [if_neg g]
      · rw [ew, post_layer hu]
        by_cases g : K = L
        · subst g; rw [if_pos rfl]; exact hl.2.1
        · rw [if_neg g]
      · rw [ew, post_layer hu]
        by_cases g : K = L
        · subst g; rw [if_pos rfl]; exact hl.2.2
        · rw [if_neg g]
      · rw [ew, post_side hu]
        by_cases g : K = L
        · subst g; rw [if_pos rfl]; exact hh
        · rw [if_neg g]
  have rd : ∀ L b, (∃ i x k, b = .start i x k) ∨ (∃ i, b = .read i) → (Whole.raw fixed ((τ n).w.f.layer L) b).leaf = ((τ n).w.f.layer L).leaf ∧
        (Whole.raw fixed ((τ n).w.f.layer L) b).used = ((τ n).w.f.layer L).used ∧ (Whole.raw fixed ((τ n).w.f.layer L) b).live = ((τ n).w.f.layer L).live := by
    rintro L b (⟨i, x, k, rfl⟩ | ⟨i, rfl⟩)
    · exact ⟨rfl, rfl, rfl⟩
    · exact ⟨rfl, rfl, rfl⟩
  unfold next at ew
  simp only at ew
  cases ep : (τ n).ph i with
  | idle => rw [ep] at ew ec; exact ⟨same ew, ec⟩
  | ret r => rw [ep] at ew ec; exact ⟨same ew, ec⟩
  | err => rw [ep] at ew ec; exact ⟨same ew, ec⟩
  | enter L m =>
    rw [ep] at ew ec
    exact ⟨step L _ ew nofun (beside_heap _ _ _ rfl).1, ec⟩
  | down L m =>
    rw [ep] at ew ec
    refine ⟨?_, ec⟩
    simp only at ew
    rw [ho] at ew
    unfold down at ew
    have GL := G L
    split at ew
    · rename_i o k g
      refine step L _ ew (fun b hb => rd L b (.inl ?_)) (beside_heap _ _ _ rfl).1
      simp only [Whole.onLeaves] at hb
      rw [show ((τ n).w.lay L).s.ix.pc i = _ from g] at hb
      split at hb
      · exact ⟨_, _, _, (Option.some.inj hb).symm⟩
      · exact ⟨_, _, _, (Option.some.inj hb).symm⟩
      · cases hb
    · rename_i g; rw [g] at GL; exact absurd GL id
    · rename_i g; rw [g] at GL; exact absurd GL id
    · exact same ew
    · split at ew
      · rename_i hi
        refine step L _ ew nofun ?_
        simp only [Whole.beside]
        rw [show ((τ n).w.lay L).s = (τ n).w.side L from rfl, if_pos hi]
        exact getPc_heap GL hi
      · exact same ew
  | read L m =>
    rw [ep] at ew ec
    refine ⟨?_, ec⟩
    simp only at ew
    split at ew
    · exact same ew
    · exact step L _ ew (fun b hb => rd L b (.inr ⟨i, (Option.some.inj hb).symm⟩)) (beside_heap _ _ _ rfl).1
  | _ => rw [ep] at P; exact absurd P id

/-! ## On the tree as the code is -/

/-- **C64** of the code as it is: `C64_no_lock_left`. -/
theorem C64_no_lock_left_all (E : ExecAll fixed strict τ β) (C : Clean strict τ β N) (R : Regular τ β N) {n : Nat} (hn : n ≤ N)
    (h : ∀ i, ¬ Inserting (τ n) i) (L : Nat) :
    (∀ x, HasLeaf (τ n) L x → NV.isLocked (((τ n).w.f.layer L).leaf x).word = false ∧ NV.isDirty (((τ n).w.f.layer L).leaf x).word = false ∧
      (((τ n).w.f.layer L).leaf x).mark = false) ∧ ∀ q, ¬ NodeLocked (τ n) L q := by
  obtain ⟨E', A⟩ := E.plain R
  have A : Agree τ _ N := A
  have := C64_no_lock_left E' (A.clean (Nat.le_refl N) C) hn (by rw [A n hn]; exact h) L
  rw [A n hn] at this
  exact this

/-- **C64** of the code as it is: `C64_two_leaves_per_insert`. -/
theorem C64_two_leaves_per_insert_all (E : ExecAll fixed strict τ β) (C : Clean strict τ β N) (R : Regular τ β N) {n : Nat} (hn : n ≤ N)
    {ls : List (Nat × Nat)} (hd : ls.Nodup) (hl : ∀ a, a ∈ ls → LeafLocked (τ n) a.1 a.2) {ts : List Nat} (ht : ∀ i, Inserting (τ n) i → i ∈ ts) :
    ls.length ≤ 2 * ts.length := by
  obtain ⟨E', A⟩ := E.plain R
  have A : Agree τ _ N := A
  refine C64_two_leaves_per_insert E' (A.clean (Nat.le_refl N) C) hn hd ?_ (by rw [A n hn]; exact ht)
  rw [A n hn]; exact hl

/-! ## The execution with a split of C62 -/

set_option maxRecDepth 100000 in
/-- While the only leaf is split, it and the new one are locked, its next pointer is marked, and thread 0 is the only one with an insert
under way; when that has returned there are two leaves under an internode. -/
theorem C64_witness :
    let τ := trace false false empty filled
    Exec false false τ (fun n => filled[n]?) ∧ Clean false τ (fun n => filled[n]?) 473 ∧ LeafLocked (τ 445) 0 1 ∧ LeafLocked (τ 445) 0 2 ∧
      (((τ 445).w.f.layer 0).leaf 1).mark = true ∧ (∀ i, Inserting (τ 445) i → i ∈ [0]) ∧ (∀ i, ¬ Inserting (τ 473) i) ∧ HasLeaf (τ 473) 0 1 ∧
      HasLeaf (τ 473) 0 2 ∧ ((τ 473).w.side 0).ix.heap.fresh = 4 := by
  refine ⟨trace_exec _, filled_clean, ⟨⟨?_, ?_⟩, ?_⟩, ⟨⟨?_, ?_⟩, ?_⟩, ?_, fun i hi => ?_, fun i hi => ?_, ⟨?_, ?_⟩, ⟨?_, ?_⟩, ?_⟩
  case refine_8 =>
    cases i with
    | zero => exact List.mem_singleton.2 rfl
    | succ i =>
      have h := hi.1
      have : ((trace false false empty filled 445).ph (i + 1)) = .idle := by with_unfolding_all rfl
      rw [this] at h; cases h
  case refine_9 =>
    cases i with
    | zero =>
      have h := hi.1
      rw [show ((trace false false empty filled 473).ph 0).over = true from by decide +kernel] at h; cases h
    | succ i =>
      have h := hi.1
      have : ((trace false false empty filled 473).ph (i + 1)) = .idle := by with_unfolding_all rfl
      rw [this] at h; cases h
  all_goals decide +kernel

set_option maxRecDepth 100000 in
/-- A step of a lookup in a layer below, for `C64_get_writes_nothing`. -/
theorem C64_get_witness : Clean false run runs 121 ∧ (run 121).op 1 = .get (key9 1 2) ∧ Runs runs 1 121 := by
  refine ⟨Whole.Clean.sub run_clean (by omega), by with_unfolding_all rfl, ⟨_, _, rfl⟩⟩

end Verif.Ops
