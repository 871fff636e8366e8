import Verif.Proof.LeafRace
set_option linter.unusedSimpArgs false
set_option linter.unusedVariables false
/-!
# Readers and writers on one leaf: readers
-/
namespace Verif.Race
open Verif.Spec (Bytes)
open Verif.Internode (upd)
open Verif.Perm (size get back backAtOffset insertFromBack swapFreeSlots params24)
open Verif.Tree
variable {V : Type}

/-- What a lookup alone in the leaf finds. -/
def seqFind (b : Leaf V) (k : Key) : Out V :=
  match searchGet b k 0 (size 5 b.perm) with
  | none => .absent
  | some s => interp (b.klx s) (b.cell s)

theorem seqFind_match {b : Leaf V} {lo : Nat} {hi : Option Nat} (hb : BodyOK b lo hi) {k : Key} {j : Nat} (hj : j < b.n)
    (hm : Matches (b.ent j) k) : seqFind b k = interp (b.klx (get 5 b.perm j)) (b.cell (get 5 b.perm j)) := by
  unfold seqFind
  rcases search_get_spec hb k with ⟨i, hi', h1, h2⟩ | ⟨h1, h2⟩
  · rw [h1, matches_unique hb hi' hj h2 hm]
  · exact absurd hm (h2 j hj)

theorem seqFind_absent {b : Leaf V} {lo : Nat} {hi : Option Nat} (hb : BodyOK b lo hi) {k : Key}
    (hm : ∀ j, j < b.n → ¬ Matches (b.ent j) k) : seqFind b k = .absent := by
  unfold seqFind
  rcases search_get_spec hb k with ⟨i, hi', h1, h2⟩ | ⟨h1, h2⟩
  · exact absurd h2 (hm i hi')
  · rw [h1]

/-- The stores are those of a slot becoming a layer. -/
def IsConf (l : List (Micro V)) : Prop := ∃ s q, l = conflictPlan s q

/-- What slot `t` of the permutation of the base `b0` looks like in the middle of a critical section. -/
inductive ReadSpec (b0 b : Leaf V) (done todo : List (Micro V)) (t : Nat) : Prop
  | same (h1 : b.klx t = b0.klx t) (h2 : b.ksuf t = b0.ksuf t) (h3 : b.cell t = b0.cell t)
      (hd : IsConf (done ++ todo) → (∃ q, done ++ todo = conflictPlan t q) → done = [])
  | upd (ht : todo = []) (hp : b.perm = b0.perm) (h1 : b.klx t = b0.klx t) (h2 : b.ksuf t = b0.ksuf t) (v v' : V)
      (hv : b.cell t = .val v) (hv' : b0.cell t = .val v') (hn : ¬ IsConf (done ++ todo))
  | gone (q : Nat) (hq : done ++ todo = conflictPlan t q) (hp : b.perm = b0.perm) (h0 : b0.klx t = 64)
      (hx : b.klx t = 64 ∨ b.klx t = 0 ∨ b.klx t = 128) (hc : b.cell t = .null)
      (ks : b.ksuf t = b0.ksuf t ∨ b.ksuf t = none) (hd : done ≠ [])
  | layer (q : Nat) (hq : done ++ todo = conflictPlan t q) (hp : b.perm = b0.perm) (h0 : b0.klx t = 64) (ht : todo = [])
      (hx : b.klx t = 128) (hc : b.cell t = .layer q) (ks : b.ksuf t = none) (hd : done ≠ [])

/-- A store to slot `s` (and not to the permutation). -/
def Micro.On (s : Nat) : Micro V → Prop
  | .ikey t _ => t = s
  | .klx t _ => t = s
  | .cell t _ => t = s
  | .ksuf t _ => t = s
  | .perm _ => False

theorem runM_on {s : Nat} {l : List (Micro V)} : ∀ {b : Leaf V}, (∀ m ∈ l, m.On s) →
    (runM b l).perm = b.perm ∧ ∀ t, t ≠ s → (runM b l).ikey t = b.ikey t ∧ (runM b l).klx t = b.klx t ∧
      (runM b l).ksuf t = b.ksuf t ∧ (runM b l).cell t = b.cell t := by
  induction l with
  | nil => intro b _; exact ⟨rfl, fun t _ => ⟨rfl, rfl, rfl, rfl⟩⟩
  | cons m l ih =>
    intro b h
    obtain ⟨i1, i2⟩ := ih (b := m.app b) (fun x hx => h x (List.mem_cons_of_mem _ hx))
    have hm := h m List.mem_cons_self
    rw [runM_cons]
    refine ⟨?_, fun t ht => ?_⟩
    · rw [i1]; cases m <;> first | rfl | exact absurd hm (by simp [Micro.On])
    · obtain ⟨j1, j2, j3, j4⟩ := i2 t ht
      rw [j1, j2, j3, j4]
      cases m <;> simp only [Micro.On] at hm <;> simp [Micro.app, Verif.Internode.upd, hm, ht]

/-- The stores of an insert before the permutation is published. -/
theorem insertPlan_split (s : Nat) (k : Key) (v : V) (p : BitVec 128) :
    ∃ l, insertPlan s k v p = l ++ [.perm p] ∧ ∀ m ∈ l, m.On s := by
  unfold insertPlan
  split
  · refine ⟨[.ikey s k.ikey, .cell s (.val v), .klx s ksufKeylenx, .ksuf s (some k.suffix), .klx s ksufKeylenx], rfl, ?_⟩
    intro m hm
    simp only [List.mem_cons, List.not_mem_nil, or_false] at hm
    rcases hm with h | h | h | h | h <;> subst h <;> rfl
  · refine ⟨[.ikey s k.ikey, .cell s (.val v), .klx s k.currentLen], rfl, ?_⟩
    intro m hm
    simp only [List.mem_cons, List.not_mem_nil, or_false] at hm
    rcases hm with h | h | h <;> subst h <;> rfl

theorem append_eq_snoc {α : Type} {a b l : List α} {x : α} (h : a ++ b = l ++ [x]) :
    b = [] ∨ ∃ b', b = b' ++ [x] ∧ a ++ b' = l := by
  rcases List.eq_nil_or_concat b with e | ⟨b', y, e⟩
  · exact Or.inl e
  · right
    subst e
    simp only [List.concat_eq_append] at h
    rw [← List.append_assoc] at h
    have := List.append_inj' h rfl
    refine ⟨b', ?_, this.1⟩
    have h2 := this.2
    simp only [List.cons.injEq, and_true] at h2
    simp [h2]

theorem insertPlan_not_conf (s : Nat) (k : Key) (v : V) (p : BitVec 128) : ¬ IsConf (insertPlan s k v p) := by
  rintro ⟨s', q, h⟩
  unfold insertPlan conflictPlan at h
  split at h <;> simp at h

theorem back_free {p : BitVec 128} (hp : PermOK p) {n : Nat} (hz : size 5 p = n) (hn : n < 24) {j : Nat} (hj : j < n) :
    get 5 p j ≠ back 5 24 p := by
  intro e
  have := hp.inj j 23 (by omega) (by omega) e
  omega

theorem reads {b0 : Leaf V} (hb : BodyOK b0 0 none) {op : WOp V} {done todo : List (Micro V)}
    (hp : PlanSpec b0 op (done ++ todo)) {j : Nat} (hj : j < b0.n) :
    (runM b0 done).ikey (get 5 b0.perm j) = b0.ikey (get 5 b0.perm j) ∧
    ReadSpec b0 (runM b0 done) done todo (get 5 b0.perm j) := by
  generalize hl : done ++ todo = l at hp
  have hn24 : b0.n ≤ 24 := hb.perm.size_le
  cases hp with
  | none =>
    obtain ⟨h1, h2⟩ := List.append_eq_nil_iff.1 hl
    subst h1
    exact ⟨rfl, .same rfl rfl rfl (fun _ _ => rfl)⟩
  | update i hi hm v hc hkx =>
    have hnc : ¬ IsConf (done ++ todo) := by
      rw [hl]; rintro ⟨s, q, h⟩; simp [conflictPlan] at h
    rcases done with _ | ⟨m, done⟩
    · exact ⟨rfl, .same rfl rfl rfl (fun _ _ => rfl)⟩
    · simp only [List.cons_append, List.cons.injEq, List.append_eq_nil_iff] at hl
      obtain ⟨h1, h2, h3⟩ := hl
      subst h1 h2 h3
      refine ⟨rfl, ?_⟩
      by_cases e : get 5 b0.perm j = get 5 b0.perm i
      · have hji := hb.perm.inj j i (by omega) (by omega) e
        subst hji
        exact .upd rfl rfl rfl rfl op.v v (by simp [Micro.app, Verif.Internode.upd]) hc hnc
      · exact .same rfl rfl (by simp [Micro.app, Verif.Internode.upd, e]) (fun h => absurd h hnc)
  | insert p1 pos hs hpos hp1 hz hg h1 h2 h3 =>
    have hnc : ¬ IsConf (done ++ todo) := by rw [hl]; exact insertPlan_not_conf _ _ _ _
    have hfree : get 5 b0.perm j ≠ back 5 24 p1 := by
      rw [← hg j hj]; exact back_free hp1 hz hs hj
    obtain ⟨l, e1, e2⟩ := insertPlan_split (back 5 24 p1) op.k op.v (insertFromBack 5 24 p1 pos).1
    have hl' := hl
    rw [e1] at hl'
    rcases append_eq_snoc hl' with h | ⟨todo', h, h'⟩
    · subst h
      rw [List.append_nil] at hl
      rw [hl, runM_insert]
      have := assignSlot_other b0 (back 5 24 p1) op.k op.v (get 5 b0.perm j) hfree
      unfold assignSlot
      split
      · refine ⟨by simp [Verif.Internode.upd, hfree], .same ?_ ?_ ?_ (fun h => absurd h (by rw [← hl]; exact hnc))⟩ <;> simp [Verif.Internode.upd, hfree]
      · refine ⟨by simp [Verif.Internode.upd, hfree], .same ?_ ?_ ?_ (fun h => absurd h (by rw [← hl]; exact hnc))⟩ <;> simp [Verif.Internode.upd, hfree]
    · have hon : ∀ m ∈ done, m.On (back 5 24 p1) := by
        intro m hm; exact e2 m (by rw [← h']; exact List.mem_append_left _ hm)
      obtain ⟨r1, r2⟩ := runM_on (b := b0) hon
      obtain ⟨r3, r4, r5, r6⟩ := r2 _ hfree
      exact ⟨r3, .same r4 r5 r6 (fun h => absurd h hnc)⟩
  | conflict i hi hik hs hkx v hc s hsf hne =>
    by_cases e : get 5 b0.perm j = get 5 b0.perm i
    · have hji := hb.perm.inj j i (by omega) (by omega) e
      subst hji
      have hkx' : b0.klx (get 5 b0.perm j) = 64 := hkx
      unfold conflictPlan at hl
      have HQ := hl
      rcases done with _ | ⟨m1, done⟩
      · exact ⟨rfl, .same rfl rfl rfl (fun _ _ => rfl)⟩
      simp only [List.cons_append, List.cons.injEq] at hl
      obtain ⟨g1, hl⟩ := hl
      subst g1
      rcases done with _ | ⟨m2, done⟩
      · exact ⟨rfl, .gone op.q HQ rfl hkx' (Or.inl hkx') (by simp [Micro.app, Verif.Internode.upd]) (Or.inl rfl) (by simp)⟩
      simp only [List.cons_append, List.cons.injEq] at hl
      obtain ⟨g2, hl⟩ := hl
      subst g2
      rcases done with _ | ⟨m3, done⟩
      · exact ⟨rfl, .gone op.q HQ rfl hkx' (Or.inl hkx') (by simp [Micro.app, Verif.Internode.upd])
          (Or.inr (by simp [Micro.app, Verif.Internode.upd])) (by simp)⟩
      simp only [List.cons_append, List.cons.injEq] at hl
      obtain ⟨g3, hl⟩ := hl
      subst g3
      rcases done with _ | ⟨m4, done⟩
      · exact ⟨rfl, .gone op.q HQ rfl hkx' (Or.inr (Or.inl (by simp [Micro.app, Verif.Internode.upd])))
          (by simp [Micro.app, Verif.Internode.upd]) (Or.inr (by simp [Micro.app, Verif.Internode.upd])) (by simp)⟩
      simp only [List.cons_append, List.cons.injEq] at hl
      obtain ⟨g4, hl⟩ := hl
      subst g4
      rcases done with _ | ⟨m5, done⟩
      · exact ⟨rfl, .gone op.q HQ rfl hkx' (Or.inr (Or.inr (by simp [Micro.app, Verif.Internode.upd, layerKeylenx])))
          (by simp [Micro.app, Verif.Internode.upd]) (Or.inr (by simp [Micro.app, Verif.Internode.upd])) (by simp)⟩
      simp only [List.cons_append, List.cons.injEq, List.append_eq_nil_iff] at hl
      obtain ⟨g5, g6, g7⟩ := hl
      subst g5 g6 g7
      exact ⟨rfl, .layer op.q HQ rfl hkx' rfl (by simp [Micro.app, Verif.Internode.upd, layerKeylenx])
        (by simp [Micro.app, Verif.Internode.upd]) (by simp [Micro.app, Verif.Internode.upd]) (by simp)⟩
    · have hon : ∀ m ∈ done, m.On (get 5 b0.perm i) := by
        intro m hm
        have : m ∈ (conflictPlan (get 5 b0.perm i) op.q : List (Micro V)) := by
          rw [← hl]; exact List.mem_append_left _ hm
        simp only [conflictPlan, List.mem_cons, List.not_mem_nil, or_false] at this
        rcases this with h | h | h | h | h <;> subst h <;> rfl
      obtain ⟨r1, r2⟩ := runM_on (b := b0) hon
      obtain ⟨r3, r4, r5, r6⟩ := r2 _ e
      refine ⟨r3, .same r4 r5 r6 ?_⟩
      rintro - ⟨q, hq⟩
      rw [hl] at hq
      simp only [conflictPlan, List.cons.injEq, Micro.cell.injEq] at hq
      exact absurd hq.1.1.symm e

/-- What the permutation can be in the middle of a critical section. -/
theorem reads_perm {b0 : Leaf V} (hb : BodyOK b0 0 none) {op : WOp V} (hk : KeyOK op.k) {done todo : List (Micro V)}
    (hp : PlanSpec b0 op (done ++ todo)) :
    (runM b0 done).perm = b0.perm ∨ (todo = [] ∧ BodyOK (runM b0 done) 0 none) := by
  by_cases ht : todo = []
  · right; subst ht; refine ⟨rfl, ?_⟩
    rw [List.append_nil] at hp; exact plan_body hb hk hp
  · left
    generalize hl : done ++ todo = l at hp
    cases hp with
    | none => obtain ⟨h1, h2⟩ := List.append_eq_nil_iff.1 hl; subst h1; rfl
    | update i hi hm v hc hkx =>
      have : done = [] := by
        rcases done with _ | ⟨m, done⟩
        · rfl
        · simp at hl; exact absurd hl.2.2 ht
      subst this; rfl
    | insert p1 pos hs hpos hp1 hz hg h1 h2 h3 =>
      obtain ⟨l, e1, e2⟩ := insertPlan_split (back 5 24 p1) op.k op.v (insertFromBack 5 24 p1 pos).1
      rw [e1] at hl
      rcases append_eq_snoc hl with h | ⟨todo', h, h'⟩
      · exact absurd h ht
      · exact (runM_on (s := back 5 24 p1) (b := b0)
          (fun m hm => e2 m (by rw [← h']; exact List.mem_append_left _ hm))).1
    | conflict i hi hik hs hkx v hc s hsf hne =>
      refine (runM_on (s := get 5 b0.perm i) (b := b0) (fun m hm => ?_)).1
      have : m ∈ (conflictPlan (get 5 b0.perm i) op.q : List (Micro V)) := by
        rw [← hl]; exact List.mem_append_left _ hm
      simp only [conflictPlan, List.mem_cons, List.not_mem_nil, or_false] at this
      rcases this with h | h | h | h | h <;> subst h <;> rfl

end Verif.Race
