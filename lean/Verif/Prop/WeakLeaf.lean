import Verif.Proof.WeakLeafEmb
import Verif.Prop.LeafRace
set_option linter.unusedSimpArgs false
set_option linter.unusedVariables false
/-!
# Lookups and inserts in one leaf on a machine with release/acquire memory: C52

Machine: `Model/WeakLeaf.lean`.  What a leaf says about a key: `Spec/LeafView.lean`.  `(σ n).past j` is the leaf after the first
`j` stores made to it (of those made up to step `n`), and `Knows (σ n) i j` says that these happen before what thread `i` does
next: they were made or seen by the thread itself, or by a thread it heard of.
-/
namespace Verif.Weak
open Verif.Internode (upd)
open Verif.Perm (size get)
open Verif.Tree (Leaf Cell)
open Verif.Spec (Bytes)
open Verif.Race (Micro WOp RPc Out rstep plan conflictPlan Sees)
variable {V : Type}

/-- Memory starts as some leaf of some tree built by inserts, unlocked, which all threads know. -/
structure Start (hasPrev : Bool) (s : St V) : Prop where
  init : ∃ b w, Init b w s ∧ Race.Start hasPrev ⟨b, w, [], 0, fun _ => .idle⟩

/-- The stores made to the leaf, one after the other, with nobody looking. -/
def history (s : St V) (j : Nat) : Race.St V := ⟨(s.past j).b, (s.past j).word, (s.past j).todo, (s.past j).secs, fun _ => .idle⟩

/-- No writer begins to turn a slot into a sublayer from store `j0` on. -/
def NoConversion (s : St V) (j0 : Nat) : Prop := ∀ j, j0 ≤ j → j ≤ s.len → ∀ x q, (s.past j).todo ≠ conflictPlan x q

theorem Start.wi {hasPrev : Bool} {σ : Nat → St V} {N : Nat} (he : Exec hasPrev σ N) (h0 : Start hasPrev (σ 0)) :
    ∀ n, n ≤ N → WI hasPrev (σ n) := by
  obtain ⟨b, w, hi, -⟩ := h0.init
  exact exec_wi he hi

theorem Start.zero {hasPrev : Bool} {σ : Nat → St V} {N : Nat} (he : Exec hasPrev σ N) (h0 : Start hasPrev (σ 0)) {n : Nat} (hn : n ≤ N) :
    Race.Start hasPrev (history (σ n) 0) := by
  obtain ⟨b, w, hi, hs⟩ := h0.init
  have := ((exec_ext he (Nat.zero_le n) hn).2 0 (Nat.zero_le _)).1
  unfold history
  rw [this, hi.past]; exact hs

/-- **C52, order of stores.** Whatever the machine reorders: the stores of all inserts into the leaf, in the order in which they
were made, are an execution of the sequentially consistent machine. -/
theorem C52_stores_are_sequential {hasPrev : Bool} {σ : Nat → St V} {N : Nat} (he : Exec hasPrev σ N) (h0 : Start hasPrev (σ 0))
    {n : Nat} (hn : n ≤ N) : Race.Start hasPrev (history (σ n) 0) ∧ Race.Exec hasPrev (history (σ n)) (σ n).len :=
  ⟨h0.zero he hn, fun j hj => (h0.wi he n hn).step j hj _⟩

/-- **C52, memory.** Everything in memory is part of that order, and the newest value of every field is what the field holds at its
end. -/
theorem C52_memory_is_history {hasPrev : Bool} {σ : Nat → St V} {N : Nat} (he : Exec hasPrev σ N) (h0 : Start hasPrev (σ 0))
    {n : Nat} (hn : n ≤ N) (l : Loc) :
    (∀ t m, (σ n).mem l t = some m → ∃ j, j ≤ (σ n).len ∧ m.val = content (history (σ n) j).b (history (σ n) j).word l) ∧
    ∃ t m, (σ n).mem l t = some m ∧ (∀ t' m', (σ n).mem l t' = some m' → t' ≤ t) ∧
      m.val = content (history (σ n) (σ n).len).b (history (σ n) (σ n).len).word l := by
  have I := h0.wi he n hn
  refine ⟨fun t m hm => ?_, ?_⟩
  · obtain ⟨j, j1, j2, j3, j4⟩ := I.msg l t m hm
    exact ⟨j, j1, j3⟩
  · obtain ⟨m, hm⟩ := I.cur l
    refine ⟨_, m, hm, fun t' m' hm' => ?_, ?_⟩
    · obtain ⟨j, j1, j2, j3, j4⟩ := I.msg l t' m' hm'
      rw [← j2]; exact I.mono' j1 (Nat.le_refl _) l
    · obtain ⟨j, j1, j2, j3, j4⟩ := I.msg l _ m hm
      rw [j3]; exact I.same' j1 (Nat.le_refl _) l j2

/-- **C52, exclusion.** At most one thread is between lock and unlock, and it knows all stores made so far. -/
theorem C52_lock_excludes {hasPrev : Bool} {σ : Nat → St V} {N : Nat} (he : Exec hasPrev σ N) (h0 : Start hasPrev (σ 0))
    {n : Nat} (hn : n ≤ N) {i : Nat} {w : NV.W} {todo : List (Micro V)} (h : (σ n).pc i = .hold w todo) :
    Knows (σ n) i (σ n).len ∧ ∀ j w' todo', (σ n).pc j = .hold w' todo' → j = i := by
  have I := h0.wi he n hn
  exact ⟨⟨Nat.le_refl _, fun l => by rw [(I.hold _ _ _ h).1]⟩, fun j w' t' h' => I.one _ _ _ _ _ _ h' h⟩

/-- **C52, inserts.** A thread that gets the lock decides what to store by looking at the newest leaf. -/
theorem C52_insert_sees_newest {hasPrev : Bool} {σ : Nat → St V} {N : Nat} (he : Exec hasPrev σ N) (h0 : Start hasPrev (σ 0))
    {n : Nat} (hn : n < N) {i : Nat} {w : NV.W} {todo : List (Micro V)} (h : ∀ w' t', (σ n).pc i ≠ .hold w' t')
    (h' : (σ (n + 1)).pc i = .hold w todo) : ∃ op, todo = plan (history (σ n) (σ n).len).b hasPrev op := by
  have I := h0.wi he n (by omega)
  have st := he n hn
  generalize σ (n + 1) = s' at st h'
  generalize σ n = s at st h h' I
  cases st with
  | start j k q => by_cases e : i = j
                   · subst e; simp [upd] at h'
                   · simp only [upd, if_neg e] at h'; exact absurd h' (h _ _)
  | load j => by_cases e : i = j
              · subst e; simp [upd] at h'
              · simp only [upd, if_neg e] at h'; exact absurd h' (h _ _)
  | tau j => by_cases e : i = j
             · subst e; simp [upd] at h'
             · simp only [upd, if_neg e] at h'; exact absurd h' (h _ _)
  | peek => exact absurd h' (h _ _)
  | lock j op t0 t m w b q ht hm hw hlk hlt hg hb hk =>
    by_cases e : i = j
    · subst e
      simp only [upd, if_true] at h'
      injection h' with a1 a2
      obtain ⟨n1, n2, n3⟩ := I.newest hm hw hlk hlt hg
      have hb' : b = (s.past s.len).b := I.reads (fun l => by rw [n3]; simp only [View.join]; omega) hb
      exact ⟨op, by rw [← a2, hb']; rfl⟩
    · simp only [upd, if_neg e] at h'; exact absurd h' (h _ _)
  | store j w m ms t q => by_cases e : i = j
                          · subst e; exact absurd q (h _ _)
                          · simp only [upd, if_neg e] at h'; exact absurd h' (h _ _)
  | unlock j w t q => by_cases e : i = j
                      · subst e; simp [upd] at h'
                      · simp only [upd, if_neg e] at h'; exact absurd h' (h _ _)
  | sync => exact absurd h' (h _ _)

theorem Knows.down {hasPrev : Bool} {s : St V} (I : WI hasPrev s) {i j j' : Nat} (h : Knows s i j') (hj : j ≤ j') : Knows s i j :=
  ⟨Nat.le_trans hj h.1, fun l => Nat.le_trans (I.mono' hj h.1 l) (h.2 l)⟩

/-- **C52, lookups.** As long as no slot is turned into a sublayer meanwhile, a lookup answers what the leaf said about the key after
some number `j` of stores, among them all that happened before the lookup began; and these stores happen before whatever the thread
does after the lookup. -/
theorem C52_lookup_not_older {hasPrev : Bool} {σ : Nat → St V} {N : Nat} (he : Exec hasPrev σ N) (h0 : Start hasPrev (σ 0))
    {i n0 n1 j0 : Nat} (hN : n1 ≤ N) {k : Key} {r : Out V} (hl : Lookup σ i n0 n1 k r) (hk : Knows (σ n0) i j0)
    (hc : NoConversion (σ n1) j0) : ∃ j, j0 ≤ j ∧ Knows (σ n1) i j ∧ Sees ((σ n1).past j).b k r := by
  obtain ⟨b, w, hi, hs⟩ := h0.init
  obtain ⟨M, K, a, τ, h1, h2, h3, h4, h5, h6⟩ := embed he hi hN hl hk
  have hz : Race.Start hasPrev (τ 0) := by rw [h4]; exact h0.zero he hN
  obtain ⟨m, m1, m2, m3⟩ := Race.C30_lookup_linearizable h3 hz (Nat.le_refl K) h5 (by
    intro n n1' n2' s q e
    obtain ⟨j, rd, j1, j2, j3⟩ := h6 n n1' n2'
    rw [j3] at e
    exact hc j j1 (Nat.le_trans j2 h2.1) s q e)
  obtain ⟨j, rd, j1, j2, j3⟩ := h6 m m1 m2
  rw [j3] at m3
  exact ⟨j, j1, h2.down (h0.wi he n1 hN) j2, m3⟩

/-- **C52, lookups that find something.** With any inserts at all: what a lookup of a key that has at least one byte left finds is what
the leaf said, as above.  The number of critical sections from the lookup's beginning on is less than the version counter can count.
Missing: lookups that find nothing, which are wrong already on a sequentially consistent machine (`C29_present_key_missed`). -/
theorem C52_found_not_older_partial {hasPrev : Bool} {σ : Nat → St V} {N : Nat} (he : Exec hasPrev σ N) (h0 : Start hasPrev (σ 0))
    {i n0 n1 j0 : Nat} (hN : n1 ≤ N) {k : Key} {r : Out V} (hl : Lookup σ i n0 n1 k r) (hk : Knows (σ n0) i j0)
    (hs : ((σ n1).past (σ n1).len).secs - ((σ n1).past j0).secs < 2 ^ 19) (hk1 : 0 < k.currentLen) (hr : r ≠ .absent) :
    ∃ j, j0 ≤ j ∧ Knows (σ n1) i j ∧ Sees ((σ n1).past j).b k r := by
  obtain ⟨b, w, hi, hst⟩ := h0.init
  obtain ⟨M, K, a, τ, h1, h2, h3, h4, h5, h6⟩ := embed he hi hN hl hk
  have hz : Race.Start hasPrev (τ 0) := by rw [h4]; exact h0.zero he hN
  have I := h0.wi he n1 hN
  have smono : ∀ x y, x ≤ y → y ≤ (σ n1).len → ((σ n1).past x).secs ≤ ((σ n1).past y).secs := by
    intro x y hxy hy
    exact Race.exec_secs (C52_stores_are_sequential he h0 hN).2 hxy hy
  have hsec : (τ K).secs - (τ a).secs < 2 ^ 19 := by
    obtain ⟨j, rd, j1, j2, j3⟩ := h6 a (Nat.le_refl _) h5.le
    obtain ⟨j', rd', j1', j2', j3'⟩ := h6 K h5.le (Nat.le_refl _)
    rw [j3, j3']
    simp only [emb]
    have := h2.1
    have := smono j0 j j1 (by omega)
    have := smono j' _ (show j' ≤ (σ n1).len by omega) (Nat.le_refl _)
    omega
  obtain ⟨m, m1, m2, m3⟩ := Race.C29_found_is_right_partial h3 hz (Nat.le_refl K) h5 hsec hk1 hr
  obtain ⟨j, rd, j1, j2, j3⟩ := h6 m m1 m2
  rw [j3] at m3
  exact ⟨j, j1, h2.down I j2, m3⟩

/-- **C52, pointers.** Under the same conditions a lookup never uses a pointer as something it is not. -/
theorem C52_no_misread_partial {hasPrev : Bool} {σ : Nat → St V} {N : Nat} (he : Exec hasPrev σ N) (h0 : Start hasPrev (σ 0))
    {i n0 n1 j0 : Nat} (hN : n1 ≤ N) {k : Key} {r : Out V} (hl : Lookup σ i n0 n1 k r) (hk : Knows (σ n0) i j0)
    (hs : ((σ n1).past (σ n1).len).secs - ((σ n1).past j0).secs < 2 ^ 19) (hk1 : 0 < k.currentLen) : r ≠ .misread := by
  rintro rfl
  obtain ⟨j, _, _, h⟩ := C52_found_not_older_partial he h0 hN hl hk hs hk1 (by simp)
  exact h

/-- A step never lets a thread forget. -/
theorem Step.view {hasPrev : Bool} {s s' : St V} (I : WI hasPrev s) (h : Step hasPrev s s') (i : Nat) (l : Loc) : s.view i l ≤ s'.view i l := by
  cases h with
  | start => exact Nat.le_refl _
  | load j pc l' t m b w h hl ht hm hb =>
    by_cases q : i = j
    · subst q
      simp only [upd, if_true, View.set, View.join]
      split
      · rename_i e; subst e; omega
      · omega
    · simp only [upd, if_neg q]; exact Nat.le_refl _
  | tau => exact Nat.le_refl _
  | peek j t m ht hm =>
    by_cases q : i = j
    · subst q
      simp only [upd, if_true, View.set]
      split
      · rename_i e; subst e; exact ht
      · exact Nat.le_refl _
    · simp only [upd, if_neg q]; exact Nat.le_refl _
  | lock j op t0 t m w b h ht hm hw hlk hlt hg hb hk =>
    by_cases q : i = j
    · subst q
      simp only [upd, if_true, View.set, View.join]
      split
      · rename_i e; subst e; omega
      · omega
    · simp only [upd, if_neg q]; exact Nat.le_refl _
  | store j w m ms t h ht hf =>
    by_cases q : i = j
    · subst q
      simp only [upd, if_true, View.set]
      split
      · rename_i e; subst e; omega
      · exact Nat.le_refl _
    · simp only [upd, if_neg q]; exact Nat.le_refl _
  | unlock j w t h ht hf =>
    by_cases q : i = j
    · subst q
      simp only [upd, if_true, View.set]
      split
      · rename_i e; subst e; omega
      · exact Nat.le_refl _
    · simp only [upd, if_neg q]; exact Nat.le_refl _
  | sync a c =>
    by_cases q : i = a
    · subst q
      simp only [upd, if_true, View.join]; omega
    · simp only [upd, if_neg q]; exact Nat.le_refl _

/-- **C52, memory of a thread.** What a thread knows it knows for ever. -/
theorem C52_knows_for_ever {hasPrev : Bool} {σ : Nat → St V} {N : Nat} (he : Exec hasPrev σ N) (h0 : Start hasPrev (σ 0))
    {n m i j : Nat} (h : n ≤ m) (hm : m ≤ N) (hk : Knows (σ n) i j) : Knows (σ m) i j := by
  induction m with
  | zero => have : n = 0 := by omega
            subst this; exact hk
  | succ m ih =>
    by_cases e : n = m + 1
    · subst e; exact hk
    · have g := ih (by omega) (by omega)
      have st := he m (by omega)
      have x := st.ext
      exact ⟨Nat.le_trans g.1 x.1, fun l => by rw [(x.2 j g.1).2]; exact Nat.le_trans (g.2 l) (st.view (h0.wi he m (by omega)) i l)⟩

/-- **C52, own writes.** A thread that unlocks the leaf knows all stores made so far. -/
theorem C52_writer_knows {hasPrev : Bool} {σ : Nat → St V} {N : Nat} (he : Exec hasPrev σ N) (h0 : Start hasPrev (σ 0))
    {n : Nat} (hn : n < N) {i : Nat} {w : NV.W} {todo : List (Micro V)} (h : (σ n).pc i = .hold w todo)
    (h' : (σ (n + 1)).pc i = .rd .idle) : Knows (σ (n + 1)) i (σ (n + 1)).len := by
  have I := h0.wi he n (by omega)
  have I' := h0.wi he (n + 1) hn
  have st := he n hn
  have hv := I.hold _ _ _ h
  refine ⟨Nat.le_refl _, fun l => ?_⟩
  generalize σ (n + 1) = s' at st h' I'
  generalize σ n = s at st h h' I hv
  cases st with
  | start j k q => by_cases e : i = j
                   · subst e; simp [upd] at h'
                   · simp only [upd, if_neg e] at h'; rw [h] at h'; cases h'
  | load j pc l t m b w q => by_cases e : i = j
                             · subst e; rw [h] at q; cases q
                             · simp only [upd, if_neg e] at h'; rw [h] at h'; cases h'
  | tau j pc b w q => by_cases e : i = j
                      · subst e; rw [h] at q; cases q
                      · simp only [upd, if_neg e] at h'; rw [h] at h'; cases h'
  | peek => simp only at h'; rw [h] at h'; cases h'
  | lock j => by_cases e : i = j
              · subst e; simp [upd] at h'
              · simp only [upd, if_neg e] at h'; rw [h] at h'; cases h'
  | store j => by_cases e : i = j
               · subst e; simp [upd] at h'
               · simp only [upd, if_neg e] at h'; rw [h] at h'; cases h'
  | unlock j w t q =>
    by_cases e : i = j
    · subst e
      simp only [upd, if_true]
      rw [hv.1]
    · simp only [upd, if_neg e] at h'; rw [h] at h'; cases h'
  | sync => simp only at h'; rw [h] at h'; cases h'

/-- Whoever hears of a thread knows what that thread knows. -/
theorem knows_hears (s : St V) (i i' j : Nat) (h : Knows s i' j) :
    Knows { s with view := upd s.view i ((s.view i).join (s.view i')) } i j := by
  refine ⟨h.1, fun l => ?_⟩
  have := h.2 l
  simp only [upd, if_true, View.join]; omega

/-- **C52, lookups do not go back.** What a thread has seen in a lookup, all its later lookups have seen. -/
theorem C52_lookups_do_not_go_back {hasPrev : Bool} {σ : Nat → St V} {N : Nat} (he : Exec hasPrev σ N) (h0 : Start hasPrev (σ 0))
    {i n0 n1 n2 n3 : Nat} (hN : n3 ≤ N) {k k' : Key} {r r' : Out V} (hl : Lookup σ i n0 n1 k r) (hlt : n1 ≤ n2) (hl' : Lookup σ i n2 n3 k' r')
    (hc : NoConversion (σ n3) 0) : ∃ j j', j ≤ j' ∧ j' ≤ (σ n3).len ∧ Sees ((σ n3).past j).b k r ∧ Sees ((σ n3).past j').b k' r' := by
  have := hl'.le
  have x := exec_ext he (show n1 ≤ n3 by omega) hN
  have hc1 : NoConversion (σ n1) 0 := by
    intro j h1 h2
    rw [← (x.2 j h2).1]; exact hc j h1 (Nat.le_trans h2 x.1)
  have hk0 : Knows (σ n0) i 0 := by
    obtain ⟨b, w, hi, -⟩ := h0.init
    have := exec_ext he (Nat.zero_le n0) (Nat.le_trans hl.le (by omega))
    refine ⟨Nat.zero_le _, fun l => ?_⟩
    rw [(this.2 0 (Nat.zero_le _)).2, hi.at_]; exact Nat.zero_le _
  obtain ⟨j, j1, j2, j3⟩ := C52_lookup_not_older he h0 (by omega) hl hk0 hc1
  have hk2 := C52_knows_for_ever he h0 hlt (by omega) j2
  obtain ⟨j', y1, y2, y3⟩ := C52_lookup_not_older he h0 hN hl' hk2 (fun a h1 h2 => hc a (Nat.zero_le _) h2)
  exact ⟨j, j', y1, y2.1, by rw [(x.2 j j2.1).1]; exact j3, y3⟩

/-! ## Executions as lists of actions

A load names the number of stores after which the value it returns was there; a store goes to the end of the order of its field. -/

inductive Act where
  | start (i : Nat) (d : Bytes)
  | load (i j : Nat)
  | tau (i : Nat)
  | lock (i : Nat) (d : Bytes) (v q : Nat)
  | store (i : Nat)
  | unlock (i : Nat)
  | sync (i j : Nat)

/-- The action if it is enabled. -/
def act (hasPrev : Bool) (s : St Nat) : Act → Option (St Nat)
  | .start i d =>
    match s.pc i with
    | .rd .idle => some { s with pc := upd s.pc i (.rd (.stable (Key.mk' d))) }
    | .rd (.done _ _) => some { s with pc := upd s.pc i (.rd (.stable (Key.mk' d))) }
    | _ => none
  | .load i j =>
    match s.pc i with
    | .rd pc =>
      match nextLoc pc with
      | some l =>
        match s.mem l (s.at_ j l) with
        | some m =>
          if j ≤ s.len ∧ s.view i l ≤ s.at_ j l then
            some { s with pc := upd s.pc i (.rd (rstep (s.past j).b (s.past j).word pc)),
                          view := upd s.view i (((s.view i).join m.view).set l (max (s.at_ j l) (m.view l))) }
          else none
        | none => none
      | none => none
    | _ => none
  | .tau i =>
    match s.pc i with
    | .rd pc =>
      match nextLoc pc with
      | none => some { s with pc := upd s.pc i (.rd (rstep (s.past 0).b (s.past 0).word pc)) }
      | _ => none
    | _ => none
  | .lock i d v q =>
    match s.pc i with
    | .rd .idle =>
      match s.mem .ver (s.at_ s.len .ver) with
      | some m =>
        if NV.lockable (s.past s.len).word = true ∧ d.length ≤ maxKeyLength then
          some { mem := setMem s .ver (s.at_ s.len .ver + 1) ⟨.word (NV.lockedOf (s.past s.len).word), m.view.set .ver (s.at_ s.len .ver + 1), s.at_ s.len .ver⟩,
                 view := upd s.view i (((s.view i).join m.view).set .ver (s.at_ s.len .ver + 1)),
                 pc := upd s.pc i (.hold (NV.lockedOf (s.past s.len).word) (plan (s.past s.len).b hasPrev ⟨Key.mk' d, v, q⟩)),
                 len := s.len + 1,
                 past := upd s.past (s.len + 1) ⟨(s.past s.len).b, NV.lockedOf (s.past s.len).word, plan (s.past s.len).b hasPrev ⟨Key.mk' d, v, q⟩, (s.past s.len).secs⟩,
                 at_ := upd s.at_ (s.len + 1) ((s.at_ s.len).set .ver (s.at_ s.len .ver + 1)) }
        else none
      | none => none
    | _ => none
  | .store i =>
    match s.pc i with
    | .hold w (m :: ms) =>
      some { mem := setMem s (Micro.loc m) (s.at_ s.len (Micro.loc m) + 1)
               ⟨Micro.val m, (s.view i).set (Micro.loc m) (s.at_ s.len (Micro.loc m) + 1), s.at_ s.len (Micro.loc m)⟩,
             view := upd s.view i ((s.view i).set (Micro.loc m) (s.at_ s.len (Micro.loc m) + 1)),
             pc := upd s.pc i (.hold w ms),
             len := s.len + 1,
             past := upd s.past (s.len + 1) { s.past s.len with b := m.app (s.past s.len).b, todo := ms },
             at_ := upd s.at_ (s.len + 1) ((s.at_ s.len).set (Micro.loc m) (s.at_ s.len (Micro.loc m) + 1)) }
    | _ => none
  | .unlock i =>
    match s.pc i with
    | .hold w [] =>
      some { mem := setMem s .ver (s.at_ s.len .ver + 1) ⟨.word (NV.unlockOf w), (s.view i).set .ver (s.at_ s.len .ver + 1), s.at_ s.len .ver⟩,
             view := upd s.view i ((s.view i).set .ver (s.at_ s.len .ver + 1)),
             pc := upd s.pc i (.rd .idle),
             len := s.len + 1,
             past := upd s.past (s.len + 1) { s.past s.len with word := NV.unlockOf w, secs := (s.past s.len).secs + 1 },
             at_ := upd s.at_ (s.len + 1) ((s.at_ s.len).set .ver (s.at_ s.len .ver + 1)) }
    | _ => none
  | .sync i j => some { s with view := upd s.view i ((s.view i).join (s.view j)) }

theorem act_step {hasPrev : Bool} {s s' : St Nat} (I : WI hasPrev s) {a : Act} (h : act hasPrev s a = some s') : Step hasPrev s s' := by
  have top : ∀ l t m, s.mem l t = some m → t ≤ s.at_ s.len l := by
    intro l t m hm
    obtain ⟨j, j1, j2, j3, j4⟩ := I.msg l t m hm
    rw [← j2]; exact I.mono' j1 (Nat.le_refl _) l
  have here : ∀ j l m, j ≤ s.len → s.mem l (s.at_ j l) = some m → m.val = content (s.past j).b (s.past j).word l := by
    intro j l m hj hm
    obtain ⟨c, c1, c2, c3, c4⟩ := I.msg _ _ _ hm
    rw [c3]
    rcases Nat.le_total c j with e | e
    · exact I.same' e hj l c2
    · exact (I.same' e c1 l c2.symm).symm
  cases a with
  | start i d =>
    simp only [act] at h
    split at h
    · rename_i e; cases h; exact .start s i _ (Or.inl e)
    · rename_i e; cases h; exact .start s i _ (Or.inr ⟨_, _, e⟩)
    · cases h
  | load i j =>
    simp only [act] at h
    split at h
    · rename_i pc e
      split at h
      · rename_i l hl
        split at h
        · rename_i m hm
          split at h
          · rename_i hc
            cases h
            exact .load s i pc l _ m _ _ e hl hc.2 hm (here j l m hc.1 hm).symm
          · cases h
        · cases h
      · cases h
    · cases h
  | tau i =>
    simp only [act] at h
    split at h
    · rename_i pc e
      split at h
      · rename_i hl
        cases h; exact .tau s i pc _ _ e hl
      · cases h
    · cases h
  | lock i d v q =>
    simp only [act] at h
    split at h
    · rename_i e
      split at h
      · rename_i m hm
        split at h
        · rename_i hc
          cases h
          refine .lock s i ⟨Key.mk' d, v, q⟩ (s.at_ s.len .ver) (s.at_ s.len .ver + 1) m _ _ (Or.inl e) (I.le i .ver) hm
            (here _ _ _ (Nat.le_refl _) hm) hc.1 (Nat.lt_succ_self _) ?_ ?_ ⟨d, 0, hc.2, rfl⟩
          · intro t' m' hm'; exact Or.inl (top _ _ _ hm')
          · intro l hl
            obtain ⟨m', hm'⟩ := I.cur l
            refine ⟨_, m', ?_, hm', (here _ _ _ (Nat.le_refl _) hm').trans (by cases l <;> first | exact absurd rfl hl | rfl)⟩
            simp only [View.join]
            have := I.le i l
            have : m.view l ≤ s.at_ s.len l := by
              obtain ⟨c, c1, c2, c3, c4⟩ := I.msg _ _ _ hm
              rw [c4]; exact I.mono' c1 (Nat.le_refl _) l
            omega
        · cases h
      · cases h
    · cases h
  | store i =>
    simp only [act] at h
    split at h
    · rename_i w m ms e
      cases h
      refine .store s i w m ms _ e (Nat.lt_succ_of_le (I.le i _)) ?_
      intro t' m' hm' hx
      have := top _ _ _ hm'; omega
    · cases h
  | unlock i =>
    simp only [act] at h
    split at h
    · rename_i w e
      cases h
      refine .unlock s i w _ e (Nat.lt_succ_of_le (I.le i _)) ?_
      intro t' m' hm' hx
      have := top _ _ _ hm'; omega
    · cases h
  | sync i j => cases h; exact .sync s i j

/-- State after the first `n` actions. -/
def trace (hasPrev : Bool) (s : St Nat) : List Act → Nat → St Nat
  | _, 0 => s
  | [], _ + 1 => s
  | a :: l, n + 1 =>
    match act hasPrev s a with
    | some s' => trace hasPrev s' l n
    | none => s

/-- All actions are enabled in turn. -/
def allOk (hasPrev : Bool) (s : St Nat) : List Act → Bool
  | [] => true
  | a :: l =>
    match act hasPrev s a with
    | some s' => allOk hasPrev s' l
    | none => false

theorem trace_zero {hasPrev : Bool} {s : St Nat} (l : List Act) : trace hasPrev s l 0 = s := by cases l <;> rfl

theorem trace_exec {hasPrev : Bool} : ∀ {l : List Act} {s : St Nat}, WI hasPrev s → allOk hasPrev s l = true →
    Exec hasPrev (trace hasPrev s l) l.length := by
  intro l
  induction l with
  | nil => intro s _ _ n hn; cases hn
  | cons a l ih =>
    intro s I h n hn
    simp only [allOk] at h
    cases ha : act hasPrev s a with
    | none => rw [ha] at h; cases h
    | some s' =>
      rw [ha] at h
      cases n with
      | zero =>
        simp only [trace, ha, trace_zero]
        exact act_step I ha
      | succ n =>
        have := ih (I.preserved (act_step I ha)) h n (by simpa using hn)
        simp only [trace, ha]
        exact this

/-- The first leaf of a tree, in memory. -/
def startOf (h : List (Bytes × Nat)) : St Nat :=
  let b := (Race.treeOf h).body 0
  { mem := fun l t => if t = 0 then some ⟨content b (NV.new true) l, fun _ => 0, 0⟩ else none,
    view := fun _ _ => 0, pc := fun _ => .rd .idle, len := 0, past := fun _ => ⟨b, NV.new true, [], 0⟩, at_ := fun _ _ => 0 }

theorem startOf_init (h : List (Bytes × Nat)) : Init ((Race.treeOf h).body 0) (NV.new true) (startOf h) :=
  ⟨fun _ => rfl, fun _ _ => rfl, fun _ => rfl, rfl, rfl, rfl⟩

def isDone : Pc Nat → Bool
  | .rd (.done _ _) => true
  | _ => false

def asked : Pc Nat → Option Key
  | .rd (.stable k) => some k
  | _ => none

def answer : Pc Nat → Option (Key × Out Nat)
  | .rd (.done k r) => some (k, r)
  | _ => none

theorem lookup_of {σ : Nat → St Nat} {i n0 n1 : Nat} {k : Key} {r : Out Nat} (h1 : n0 ≤ n1)
    (h2 : asked ((σ n0).pc i) = some k) (h3 : ∀ n, n < n1 → n0 ≤ n → isDone ((σ n).pc i) = false)
    (h4 : answer ((σ n1).pc i) = some (k, r)) : Lookup σ i n0 n1 k r := by
  refine ⟨h1, ?_, fun n a b k' r' e => (by have := h3 n b a; rw [e] at this; cases this), ?_⟩
  · generalize (σ n0).pc i = x at h2
    unfold asked at h2; split at h2 <;> simp_all
  · generalize (σ n1).pc i = x at h4
    unfold answer at h4; split at h4 <;> simp_all

theorem idle_of {x : Pc Nat} (h : (match x with | .rd .idle => true | _ => false) = true) : x = .rd .idle := by
  split at h
  · rfl
  · cases h

theorem hold_of {x : Pc Nat} (h : (match x with | .hold _ _ => true | _ => false) = true) : ∃ w t, x = .hold w t := by
  split at h
  · exact ⟨_, _, rfl⟩
  · cases h

set_option maxRecDepth 100000

open Race (key9 start_key9)

/-- Thread 1 gives `key9 1` the value 11 and unlocks.  Thread 0 then looks it up, but reads what was there in the beginning.  Then it
hears of thread 1 and looks it up again. -/
def staleSchedule : List Act :=
  [.lock 1 (key9 1) 11 7, .store 1, .unlock 1,
   .start 0 (key9 1), .load 0 0, .load 0 0, .load 0 0, .load 0 0, .load 0 0, .load 0 0, .load 0 0, .load 0 0,
   .sync 0 1,
   .start 0 (key9 1), .load 0 3, .load 0 3, .load 0 3, .load 0 3, .load 0 3, .load 0 3, .load 0 3, .load 0 3]

theorem stale_ok : allOk false (startOf [(key9 1, 10)]) staleSchedule = true := by decide +kernel

/-- **C52, witness.** The hypotheses of the theorems above are met, with a lookup that begins after an insert has ended and still
misses it, because nothing makes the insert known to it (so this is not a sequentially consistent machine), and a second lookup by the
same thread to which the insert is known. -/
theorem C52_witness : ∃ (σ : Nat → St Nat) (N : Nat), Exec false σ N ∧ Start false (σ 0) ∧ NoConversion (σ N) 0 ∧ (σ N).len = 3 ∧
    (σ 3).len = 3 ∧ (σ 3).pc 1 = .rd .idle ∧ Sees ((σ N).past 3).b (Key.mk' (key9 1)) (.value 11) ∧
    ¬ Knows (σ 4) 0 3 ∧ Lookup σ 0 4 12 (Key.mk' (key9 1)) (.value 10) ∧
    Knows (σ 14) 0 3 ∧ Lookup σ 0 14 N (Key.mk' (key9 1)) (.value 11) := by
  have hi := startOf_init [(key9 1, 10)]
  have he := trace_exec (WI.first hi) stale_ok
  have hs : Start false (trace false (startOf [(key9 1, 10)]) staleSchedule 0) := by
    rw [trace_zero]; exact ⟨_, _, hi, start_key9⟩
  have hl : (trace false (startOf [(key9 1, 10)]) staleSchedule staleSchedule.length).len = 3 := by decide +kernel
  refine ⟨trace false (startOf [(key9 1, 10)]) staleSchedule, staleSchedule.length, he, hs, ?_, hl, by decide +kernel, ?_, ?_, ?_,
    lookup_of (by decide) (by decide +kernel) (by decide +kernel) (by decide +kernel), ?_,
    lookup_of (by decide) (by decide +kernel) (by decide +kernel) (by decide +kernel)⟩
  · intro j _ hj x q e
    have key : ∀ j, j < 4 → ((trace false (startOf [(key9 1, 10)]) staleSchedule staleSchedule.length).past j).todo.length < 5 := by
      decide +kernel
    have := key j (by omega)
    rw [e] at this; simp [conflictPlan] at this
  · exact idle_of (by decide +kernel)
  · exact Race.sees_of_seqFind (by decide +kernel) (by simp)
  · rintro ⟨_, h⟩
    have := h .ver
    revert this; decide +kernel
  · obtain ⟨w, todo, h2⟩ := hold_of (x := (trace false (startOf [(key9 1, 10)]) staleSchedule 2).pc 1) (by decide +kernel)
    have h3 := C52_writer_knows he hs (n := 2) (i := 1) (by decide) h2 (idle_of (by decide +kernel))
    have e3 : (trace false (startOf [(key9 1, 10)]) staleSchedule 3).len = 3 := by decide +kernel
    rw [e3] at h3
    have h12 := C52_knows_for_ever he hs (show 3 ≤ 12 by omega) (by decide) h3
    have h13 : Knows (trace false (startOf [(key9 1, 10)]) staleSchedule 13) 0 3 := by
      have e : trace false (startOf [(key9 1, 10)]) staleSchedule 13 =
        { trace false (startOf [(key9 1, 10)]) staleSchedule 12 with
            view := upd (trace false (startOf [(key9 1, 10)]) staleSchedule 12).view 0
              (((trace false (startOf [(key9 1, 10)]) staleSchedule 12).view 0).join ((trace false (startOf [(key9 1, 10)]) staleSchedule 12).view 1)) } :=
        by with_unfolding_all rfl
      rw [e]; exact knows_hears _ _ _ _ h12
    exact C52_knows_for_ever he hs (show 13 ≤ 14 by omega) (by decide) h13

end Verif.Weak
