import Verif.Model.WeakLeaf
import Verif.Proof.LeafRacePlain
set_option linter.unusedSimpArgs false
set_option linter.unusedVariables false
/-! Invariant of the release/acquire machine: the stores to the leaf form one sequence, and views are prefixes of it. -/
namespace Verif.Weak
open Verif.Internode (upd)
open Verif.Tree (Leaf Cell)
open Verif.Race (Micro WOp RPc rstep plan)
variable {V : Type}

theorem not_lockable (u : NV.W) : NV.lockable (NV.lockedOf u) = false := by
  simp only [NV.lockable, NV.lockedOf, NV.LOCK, NV.DIRTY, NV.INSERTING, NV.SPLITTING]
  apply beq_eq_false_iff_ne.2
  intro h
  have := congrArg (fun x => x.getLsbD 0) h
  simp at this

theorem locked_lockedOf (u : NV.W) : NV.isLocked (NV.lockedOf u) = true := by
  simp only [NV.isLocked, NV.lockedOf, NV.LOCK, NV.INSERTING]
  apply bne_iff_ne.2
  intro h
  have := congrArg (fun x => x.getLsbD 0) h
  simp at this

/-- Content of a field after `j` stores. -/
def St.val (s : St V) (j : Nat) (l : Loc) : Val V := content (s.past j).b (s.past j).word l

/-- A writer's state with some readers. -/
def emb (n : Now V) (rd : Nat → RPc V) : Race.St V := ⟨n.b, n.word, n.todo, n.secs, rd⟩

structure WI (hasPrev : Bool) (s : St V) : Prop where
  msg : ∀ l t m, s.mem l t = some m → ∃ j, j ≤ s.len ∧ s.at_ j l = t ∧ m.val = s.val j l ∧ m.view = s.at_ j
  mono : ∀ j, j < s.len → ∀ l, s.at_ j l ≤ s.at_ (j + 1) l
  same : ∀ j, j < s.len → ∀ l, s.at_ j l = s.at_ (j + 1) l → s.val j l = s.val (j + 1) l
  cur : ∀ l, ∃ m, s.mem l (s.at_ s.len l) = some m
  chain : ∀ t0 m w, s.mem .ver t0 = some m → m.val = .word w → NV.lockable w = true → t0 < s.at_ s.len .ver →
    ∃ t1 m1, s.mem .ver t1 = some m1 ∧ m1.src = t0 ∧ t0 < t1
  last : NV.lockable (s.past s.len).word = true → ∀ m, s.mem .ver (s.at_ s.len .ver) = some m → m.view = s.at_ s.len
  hold : ∀ i w todo, s.pc i = .hold w todo → s.view i = s.at_ s.len ∧ (s.past s.len).word = w ∧ (s.past s.len).todo = todo ∧
    ∃ u, w = NV.lockedOf u
  one : ∀ i j w w' t t', s.pc i = .hold w t → s.pc j = .hold w' t' → i = j
  le : ∀ i l, s.view i l ≤ s.at_ s.len l
  step : ∀ j, j < s.len → ∀ rd, Race.Step hasPrev (emb (s.past j) rd) (emb (s.past (j + 1)) rd)

namespace WI
variable {hasPrev : Bool} {s : St V}

theorem mono' (I : WI hasPrev s) {j j' : Nat} (h : j ≤ j') (h' : j' ≤ s.len) (l : Loc) : s.at_ j l ≤ s.at_ j' l := by
  induction j' with
  | zero => have : j = 0 := by omega
            subst this; exact Nat.le_refl _
  | succ n ih =>
    by_cases e : j = n + 1
    · subst e; exact Nat.le_refl _
    · exact Nat.le_trans (ih (by omega) (by omega)) (I.mono n (by omega) l)

theorem same' (I : WI hasPrev s) {j j' : Nat} (h : j ≤ j') (h' : j' ≤ s.len) (l : Loc) (e : s.at_ j l = s.at_ j' l) : s.val j l = s.val j' l := by
  induction j' with
  | zero => have : j = 0 := by omega
            subst this; rfl
  | succ n ih =>
    by_cases q : j = n + 1
    · subst q; rfl
    · have a := I.mono' (j := j) (j' := n) (by omega) (by omega) l
      have b := I.mono n (by omega) l
      rw [ih (by omega) (by omega) (by omega)]
      exact I.same n (by omega) l (by omega)

/-- What a thread that knows the first `M` stores reads was there at a moment not before. -/
theorem read (I : WI hasPrev s) {M t : Nat} {l : Loc} {m : Msg V} (hM : M ≤ s.len) (ht : s.at_ M l ≤ t) (hm : s.mem l t = some m) :
    ∃ N, M ≤ N ∧ N ≤ s.len ∧ m.val = s.val N l ∧ ∀ x, max (s.at_ M x) (m.view x) = s.at_ N x := by
  obtain ⟨j, j1, j2, j3, j4⟩ := I.msg l t m hm
  by_cases h : M ≤ j
  · refine ⟨j, h, j1, j3, fun x => ?_⟩
    rw [j4]; have := I.mono' h j1 x; omega
  · refine ⟨M, Nat.le_refl _, hM, ?_, fun x => ?_⟩
    · rw [j3]
      have := I.mono' (j := j) (j' := M) (by omega) hM l
      exact I.same' (by omega) hM l (by omega)
    · rw [j4]; have := I.mono' (j := j) (j' := M) (by omega) hM x; omega

/-- The message that `lock` reads is the newest. -/
theorem newest (I : WI hasPrev s) {t0 t : Nat} {m : Msg V} {w : NV.W} (hm : s.mem .ver t0 = some m) (hw : m.val = .word w)
    (hlk : NV.lockable w = true) (hlt : t0 < t) (hg : Gap s .ver t0 t) :
    t0 = s.at_ s.len .ver ∧ (s.past s.len).word = w ∧ m.view = s.at_ s.len := by
  obtain ⟨j, j1, j2, j3, j4⟩ := I.msg _ _ _ hm
  have h1 := I.mono' j1 (Nat.le_refl _) .ver
  have h2 : t0 = s.at_ s.len .ver := by
    by_contra h
    obtain ⟨t1, m1, a, b, c⟩ := I.chain t0 m w hm hw hlk (by omega)
    rcases hg t1 m1 a with g | g <;> omega
  have h3 := I.same' j1 (Nat.le_refl _) .ver (by omega)
  rw [← j3, hw] at h3
  have h4 : (s.past s.len).word = w := by
    simp only [St.val, content] at h3; injection h3 with h3; exact h3.symm
  exact ⟨h2, h4, I.last (by rw [h4]; exact hlk) m (by rw [← h2]; exact hm)⟩

/-- What the lock holder reads is the newest. -/
theorem reads (I : WI hasPrev s) {u : View} {b : Leaf V} (hu : ∀ l, s.at_ s.len l ≤ u l) (h : Reads s u b) : b = (s.past s.len).b := by
  have g : ∀ l, l ≠ .ver → content b 0 l = content (s.past s.len).b (s.past s.len).word l := by
    intro l hl
    obtain ⟨t, m, h1, h2, h3⟩ := h l hl
    obtain ⟨j, j1, j2, j3, j4⟩ := I.msg _ _ _ h2
    have := I.mono' j1 (Nat.le_refl _) l
    have := hu l
    rw [← h3, j3]
    exact I.same' j1 (Nat.le_refl _) l (by omega)
  cases e : (s.past s.len).b with
  | mk p ik kl ce ks =>
    rw [e] at g
    cases b with
    | mk p' ik' kl' ce' ks' =>
      have g1 := g .perm (by simp)
      have g2 := fun x => g (.ikey x) (by simp)
      have g3 := fun x => g (.klx x) (by simp)
      have g4 := fun x => g (.cell x) (by simp)
      have g5 := fun x => g (.ksuf x) (by simp)
      simp only [content, Val.perm.injEq, Val.num.injEq, Val.cell.injEq, Val.suf.injEq] at g1 g2 g3 g4 g5
      rw [g1, funext g2, funext g3, funext g4, funext g5]

/-- A store to field `l`. -/
structure Wrote (s s' : St V) (l : Loc) (t : Nat) (m : Msg V) (n : Now V) : Prop where
  gt : s.at_ s.len l < t
  mem : s'.mem = setMem s l t m
  len : s'.len = s.len + 1
  past : s'.past = upd s.past (s.len + 1) n
  at_ : s'.at_ = upd s.at_ (s.len + 1) ((s.at_ s.len).set l t)
  view : m.view = (s.at_ s.len).set l t
  val : m.val = content n.b n.word l
  rest : ∀ x, x ≠ l → content n.b n.word x = s.val s.len x

namespace Wrote
variable {s' : St V} {l : Loc} {t : Nat} {m : Msg V} {n : Now V}

theorem at_old (W : Wrote s s' l t m n) {j : Nat} (h : j ≤ s.len) : s'.at_ j = s.at_ j := by
  rw [W.at_]; exact Verif.Internode.upd_ne _ _ _ (by omega)
theorem at_new (W : Wrote s s' l t m n) : s'.at_ s'.len = (s.at_ s.len).set l t := by
  rw [W.at_, W.len]; exact Verif.Internode.upd_same _ _ _
theorem past_old (W : Wrote s s' l t m n) {j : Nat} (h : j ≤ s.len) : s'.past j = s.past j := by
  rw [W.past]; exact Verif.Internode.upd_ne _ _ _ (by omega)
theorem past_new (W : Wrote s s' l t m n) : s'.past s'.len = n := by
  rw [W.past, W.len]; exact Verif.Internode.upd_same _ _ _
theorem val_old (W : Wrote s s' l t m n) {j : Nat} (h : j ≤ s.len) (x : Loc) : s'.val j x = s.val j x := by
  unfold St.val; rw [W.past_old h]
theorem val_new (W : Wrote s s' l t m n) (x : Loc) : s'.val s'.len x = content n.b n.word x := by
  unfold St.val; rw [W.past_new]
theorem at_le (W : Wrote s s' l t m n) (x : Loc) : s.at_ s.len x ≤ s'.at_ s'.len x := by
  rw [W.at_new]; unfold View.set; have := W.gt
  split
  · rename_i e; subst e; omega
  · exact Nat.le_refl _

theorem msg (W : Wrote s s' l t m n) (I : WI hasPrev s) :
    ∀ x y q, s'.mem x y = some q → ∃ j, j ≤ s'.len ∧ s'.at_ j x = y ∧ q.val = s'.val j x ∧ q.view = s'.at_ j := by
  intro x y q h
  rw [W.mem] at h
  unfold setMem at h
  split at h
  · rename_i e
    obtain ⟨rfl, rfl⟩ := e
    cases h
    refine ⟨s'.len, Nat.le_refl _, ?_, ?_, ?_⟩
    · rw [W.at_new]; simp [View.set]
    · rw [W.val_new, W.val]
    · rw [W.at_new, W.view]
  · obtain ⟨j, j1, j2, j3, j4⟩ := I.msg x y q h
    exact ⟨j, by rw [W.len]; omega, by rw [W.at_old j1]; exact j2, by rw [W.val_old j1]; exact j3, by rw [W.at_old j1]; exact j4⟩

theorem mono (W : Wrote s s' l t m n) (I : WI hasPrev s) : ∀ j, j < s'.len → ∀ x, s'.at_ j x ≤ s'.at_ (j + 1) x := by
  intro j hj x
  rw [W.len] at hj
  by_cases e : j = s.len
  · subst e
    rw [W.at_old (Nat.le_refl _), ← W.len]; exact W.at_le x
  · rw [W.at_old (by omega), W.at_old (by omega)]; exact I.mono j (by omega) x

theorem same (W : Wrote s s' l t m n) (I : WI hasPrev s) :
    ∀ j, j < s'.len → ∀ x, s'.at_ j x = s'.at_ (j + 1) x → s'.val j x = s'.val (j + 1) x := by
  intro j hj x h
  rw [W.len] at hj
  by_cases e : j = s.len
  · subst e
    rw [W.at_old (Nat.le_refl _), ← W.len, W.at_new] at h
    have hx : x ≠ l := by
      rintro rfl
      have := W.gt
      simp only [View.set, if_true] at h; omega
    rw [W.val_old (Nat.le_refl _), ← W.len, W.val_new, W.rest x hx]
  · rw [W.at_old (by omega), W.at_old (by omega)] at h
    rw [W.val_old (by omega), W.val_old (by omega)]; exact I.same j (by omega) x h

theorem cur (W : Wrote s s' l t m n) (I : WI hasPrev s) : ∀ x, ∃ q, s'.mem x (s'.at_ s'.len x) = some q := by
  intro x
  rw [W.at_new, W.mem]
  by_cases e : x = l
  · subst e; exact ⟨m, by simp [setMem, View.set]⟩
  · obtain ⟨q, hq⟩ := I.cur x
    exact ⟨q, by simp [setMem, View.set, e, hq]⟩

theorem steps (W : Wrote s s' l t m n) (I : WI hasPrev s) (h : ∀ rd, Race.Step hasPrev (emb (s.past s.len) rd) (emb n rd)) :
    ∀ j, j < s'.len → ∀ rd, Race.Step hasPrev (emb (s'.past j) rd) (emb (s'.past (j + 1)) rd) := by
  intro j hj rd
  rw [W.len] at hj
  by_cases e : j = s.len
  · subst e
    rw [W.past_old (Nat.le_refl _), ← W.len, W.past_new]; exact h rd
  · rw [W.past_old (by omega), W.past_old (by omega)]; exact I.step j (by omega) rd

end Wrote

theorem idle_ne_hold {i : Nat} {w : NV.W} {t : List (Micro V)} (h : s.pc i = .rd .idle ∨ ∃ k' r, s.pc i = .rd (.done k' r)) :
    s.pc i ≠ .hold w t := by
  rcases h with h | ⟨_, _, h⟩ <;> rw [h] <;> simp

theorem micro_content (b : Leaf V) (w : NV.W) (m : Micro V) : content (m.app b) w (Micro.loc m) = Micro.val m := by
  cases m <;> simp [Race.Micro.app, Micro.loc, Micro.val, content, upd]

theorem micro_rest (b : Leaf V) (w : NV.W) (m : Micro V) (x : Loc) (hx : x ≠ Micro.loc m) : content (m.app b) w x = content b w x := by
  cases m <;> cases x <;> simp_all [Race.Micro.app, Micro.loc, Micro.val, content, upd]

theorem preserved {s' : St V} (I : WI hasPrev s) (h : Step hasPrev s s') : WI hasPrev s' := by
  cases h with
  | start i k h =>
    refine ⟨I.msg, I.mono, I.same, I.cur, I.chain, I.last, ?_, ?_, I.le, I.step⟩
    · intro j w t e
      by_cases q : j = i
      · subst q; simp [upd] at e
      · simp only [upd, if_neg q] at e; exact I.hold j w t e
    · intro j j' w w' t t' e e'
      by_cases q : j = i
      · subst q; simp [upd] at e
      · by_cases q' : j' = i
        · subst q'; simp [upd] at e'
        · simp only [upd, if_neg q, if_neg q'] at e e'; exact I.one _ _ _ _ _ _ e e'
  | load i pc l t m b w h hl ht hm hb =>
    refine ⟨I.msg, I.mono, I.same, I.cur, I.chain, I.last, ?_, ?_, ?_, I.step⟩
    · intro j w t e
      by_cases q : j = i
      · subst q; simp [upd] at e
      · simp only [upd, if_neg q] at e ⊢; exact I.hold j w t e
    · intro j j' w w' t t' e e'
      by_cases q : j = i
      · subst q; simp [upd] at e
      · by_cases q' : j' = i
        · subst q'; simp [upd] at e'
        · simp only [upd, if_neg q, if_neg q'] at e e'; exact I.one _ _ _ _ _ _ e e'
    · intro j x
      by_cases q : j = i
      · subst q
        simp only [upd, if_true, View.set, View.join]
        obtain ⟨c, c1, c2, c3, c4⟩ := I.msg _ _ _ hm
        have := I.le j x
        have := I.mono' c1 (Nat.le_refl _) x
        rw [c4]
        split
        · rename_i e; subst e; omega
        · omega
      · simp only [upd, if_neg q]; exact I.le j x
  | tau i pc b w h hl =>
    refine ⟨I.msg, I.mono, I.same, I.cur, I.chain, I.last, ?_, ?_, I.le, I.step⟩
    · intro j w t e
      by_cases q : j = i
      · subst q; simp [upd] at e
      · simp only [upd, if_neg q] at e; exact I.hold j w t e
    · intro j j' w w' t t' e e'
      by_cases q : j = i
      · subst q; simp [upd] at e
      · by_cases q' : j' = i
        · subst q'; simp [upd] at e'
        · simp only [upd, if_neg q, if_neg q'] at e e'; exact I.one _ _ _ _ _ _ e e'
  | peek i t m ht hm =>
    obtain ⟨c, c1, c2, c3, c4⟩ := I.msg _ _ _ hm
    have hc := I.mono' c1 (Nat.le_refl _) .ver
    refine ⟨I.msg, I.mono, I.same, I.cur, I.chain, I.last, ?_, I.one, ?_, I.step⟩
    · intro j w t' e
      obtain ⟨h1, h2⟩ := I.hold j w t' e
      refine ⟨?_, h2⟩
      by_cases q : j = i
      · subst q
        simp only [upd, if_true]
        funext x
        unfold View.set
        split
        · rename_i e; subst e
          rw [h1] at ht; omega
        · rw [h1]
      · simp only [upd, if_neg q]; exact h1
    · intro j x
      by_cases q : j = i
      · subst q
        simp only [upd, if_true, View.set]
        split
        · rename_i e; subst e; omega
        · exact I.le j x
      · simp only [upd, if_neg q]; exact I.le j x
  | lock i op t0 t m w b h ht hm hw hlk hlt hg hb hk =>
    obtain ⟨n1, n2, n3⟩ := I.newest hm hw hlk hlt hg
    have hv : ((s.view i).join m.view) = s.at_ s.len := by
      funext x; simp only [View.join, n3]; have := I.le i x; omega
    have hb' : b = (s.past s.len).b := I.reads (fun l => by rw [hv]) hb
    have hno : ∀ j w' t', s.pc j ≠ .hold w' t' := by
      intro j w' t' e
      obtain ⟨_, q, _, u, hu⟩ := I.hold j w' t' e
      rw [n2, hu] at q
      rw [q, not_lockable] at hlk; cases hlk
    have W : Wrote s {
          mem := setMem s .ver t ⟨.word (NV.lockedOf w), m.view.set .ver t, t0⟩,
          view := upd s.view i (((s.view i).join m.view).set .ver t),
          pc := upd s.pc i (.hold (NV.lockedOf w) (plan b hasPrev op)),
          len := s.len + 1,
          past := upd s.past (s.len + 1) ⟨(s.past s.len).b, NV.lockedOf w, plan b hasPrev op, (s.past s.len).secs⟩,
          at_ := upd s.at_ (s.len + 1) ((s.at_ s.len).set .ver t) } .ver t
          ⟨.word (NV.lockedOf w), m.view.set .ver t, t0⟩ ⟨(s.past s.len).b, NV.lockedOf w, plan b hasPrev op, (s.past s.len).secs⟩ :=
      ⟨by omega, rfl, rfl, rfl, rfl, by rw [n3], rfl, by
      intro x hx; unfold St.val; cases x <;> first | exact absurd rfl hx | rfl⟩
    refine ⟨W.msg I, W.mono I, W.same I, W.cur I, ?_, ?_, ?_, ?_, ?_, W.steps I ?_⟩
    · intro a q w' ha hq hl' hlt'
      rw [W.mem] at ha
      simp only [setMem] at ha
      split at ha
      · cases ha
        injection hq with hq
        rw [← hq, not_lockable] at hl'; cases hl'
      · by_cases e : a = t0
        · subst e
          exact ⟨t, _, by rw [W.mem]; simp only [setMem, and_self, if_true]; rfl, rfl, hlt⟩
        · have : a < s.at_ s.len .ver := by
            obtain ⟨c, c1, c2, c3, c4⟩ := I.msg _ _ _ ha
            have := I.mono' c1 (Nat.le_refl _) .ver
            omega
          obtain ⟨t1, m1, x1, x2, x3⟩ := I.chain a q w' ha hq hl' this
          refine ⟨t1, m1, ?_, x2, x3⟩
          rw [W.mem]; simp only [setMem]
          rw [if_neg, x1]
          rintro ⟨_, rfl⟩
          obtain ⟨c, c1, c2, c3, c4⟩ := I.msg _ _ _ x1
          have := I.mono' c1 (Nat.le_refl _) .ver
          omega
    · intro hl'
      rw [W.past_new] at hl'
      simp only [not_lockable] at hl'; cases hl'
    · intro j w' t' e
      simp only [upd] at e
      split at e
      · rename_i q
        subst q
        injection e with e1 e2
        rw [W.at_new, W.past_new]
        refine ⟨?_, e1, e2, w, e1.symm⟩
        simp only [upd, if_true]; rw [hv]
      · exact absurd e (hno _ _ _)
    · intro j j' w1 w2 t1 t2 e e'
      simp only [upd] at e e'
      split at e
      · split at e'
        · omega
        · exact absurd e' (hno _ _ _)
      · exact absurd e (hno _ _ _)
    · intro j x
      by_cases q : j = i
      · subst q
        rw [W.at_new]
        simp only [upd, if_true]; rw [hv]
      · refine Nat.le_trans ?_ (W.at_le x)
        simp only [upd, if_neg q]; exact I.le j x
    · intro rd
      have := Race.Step.lock (hasPrev := hasPrev) (emb (s.past s.len) rd) op (by simp only [emb]; rw [n2]; exact hlk) hk
      simp only [emb] at this ⊢
      rw [n2, ← hb'] at this
      rw [← hb', n2]
      exact this
  | store i w m ms t h ht hf =>
    obtain ⟨h1, h2, h3, u, h4⟩ := I.hold i w _ h
    have W : Wrote s {
          mem := setMem s (Micro.loc m) t ⟨Micro.val m, (s.view i).set (Micro.loc m) t, t - 1⟩,
          view := upd s.view i ((s.view i).set (Micro.loc m) t),
          pc := upd s.pc i (.hold w ms),
          len := s.len + 1,
          past := upd s.past (s.len + 1) { s.past s.len with b := m.app (s.past s.len).b, todo := ms },
          at_ := upd s.at_ (s.len + 1) ((s.at_ s.len).set (Micro.loc m) t) } (Micro.loc m) t
          ⟨Micro.val m, (s.view i).set (Micro.loc m) t, t - 1⟩ { s.past s.len with b := m.app (s.past s.len).b, todo := ms } :=
      ⟨by rw [h1] at ht; exact ht, rfl, rfl, rfl, rfl, by rw [h1],
      (micro_content _ _ _).symm, fun x hx => micro_rest _ _ _ _ hx⟩
    have hv : Micro.loc m ≠ .ver := by cases m <;> simp [Micro.loc]
    refine ⟨W.msg I, W.mono I, W.same I, W.cur I, ?_, ?_, ?_, ?_, ?_, W.steps I ?_⟩
    · intro a q w' ha hq hl' hlt'
      rw [W.mem] at ha
      simp only [setMem, hv.symm, false_and, if_false] at ha
      rw [W.at_new] at hlt'
      simp only [View.set, if_neg hv.symm] at hlt'
      obtain ⟨t1, m1, x1, x2, x3⟩ := I.chain a q w' ha hq hl' hlt'
      exact ⟨t1, m1, by rw [W.mem]; simp only [setMem, hv.symm, false_and, if_false]; exact x1, x2, x3⟩
    · intro hl'
      rw [W.past_new] at hl'
      simp only [h2, h4, not_lockable] at hl'; cases hl'
    · intro j w' t' e
      simp only [upd] at e
      split at e
      · rename_i q
        subst q
        injection e with e1 e2
        rw [W.at_new, W.past_new]
        refine ⟨?_, h2.trans e1, e2, u, by rw [← e1]; exact h4⟩
        simp only [upd, if_true]; rw [h1]
      · rename_i q
        exact absurd (I.one _ _ _ _ _ _ e h) q
    · intro j j' w1 w2 t1 t2 e e'
      simp only [upd] at e e'
      split at e
      · split at e'
        · omega
        · rename_i q; exact absurd (I.one _ _ _ _ _ _ e' h) q
      · rename_i q; exact absurd (I.one _ _ _ _ _ _ e h) q
    · intro j x
      by_cases q : j = i
      · subst q
        rw [W.at_new]
        simp only [upd, if_true]; rw [h1]
      · refine Nat.le_trans ?_ (W.at_le x)
        simp only [upd, if_neg q]; exact I.le j x
    · intro rd
      exact Race.Step.store (hasPrev := hasPrev) (emb (s.past s.len) rd) m ms h3
  | unlock i w t h ht hf =>
    obtain ⟨h1, h2, h3, u, h4⟩ := I.hold i w _ h
    have W : Wrote s {
          mem := setMem s .ver t ⟨.word (NV.unlockOf w), (s.view i).set .ver t, t - 1⟩,
          view := upd s.view i ((s.view i).set .ver t),
          pc := upd s.pc i (.rd .idle),
          len := s.len + 1,
          past := upd s.past (s.len + 1) { s.past s.len with word := NV.unlockOf w, secs := (s.past s.len).secs + 1 },
          at_ := upd s.at_ (s.len + 1) ((s.at_ s.len).set .ver t) } .ver t
          ⟨.word (NV.unlockOf w), (s.view i).set .ver t, t - 1⟩ { s.past s.len with word := NV.unlockOf w, secs := (s.past s.len).secs + 1 } :=
      ⟨by rw [h1] at ht; exact ht, rfl, rfl, rfl, rfl, by rw [h1], rfl, by
      intro x hx; unfold St.val; cases x <;> first | exact absurd rfl hx | rfl⟩
    refine ⟨W.msg I, W.mono I, W.same I, W.cur I, ?_, ?_, ?_, ?_, ?_, W.steps I ?_⟩
    · intro a q w' ha hq hl' hlt'
      rw [W.at_new] at hlt'
      simp only [View.set, if_true] at hlt'
      rw [W.mem] at ha
      simp only [setMem, true_and] at ha
      rw [if_neg (by omega)] at ha
      obtain ⟨c, c1, c2, c3, c4⟩ := I.msg _ _ _ ha
      have hc := I.mono' c1 (Nat.le_refl _) .ver
      have hne : a ≠ s.at_ s.len .ver := by
        intro e
        have := I.same' c1 (Nat.le_refl _) .ver (by omega)
        rw [← c3, hq] at this
        simp only [St.val, content] at this
        injection this with this
        rw [this, h2, h4, not_lockable] at hl'; cases hl'
      obtain ⟨t1, m1, x1, x2, x3⟩ := I.chain a q w' ha hq hl' (by omega)
      refine ⟨t1, m1, ?_, x2, x3⟩
      rw [W.mem]; simp only [setMem]
      rw [if_neg, x1]
      rintro ⟨_, rfl⟩
      obtain ⟨c, c1, c2, c3, c4⟩ := I.msg _ _ _ x1
      have := I.mono' c1 (Nat.le_refl _) .ver
      rw [h1] at ht; omega
    · intro hl' q hq
      rw [W.at_new] at hq ⊢
      simp only [View.set, if_true] at hq
      simp only [setMem, and_self, if_true] at hq
      cases hq
      simp only; rw [h1]
    · intro j w' t' e
      simp only [upd] at e
      split at e
      · cases e
      · rename_i q
        exact absurd (I.one _ _ _ _ _ _ e h) q
    · intro j j' w1 w2 t1 t2 e e'
      simp only [upd] at e e'
      split at e
      · cases e
      · rename_i q; exact absurd (I.one _ _ _ _ _ _ e h) q
    · intro j x
      by_cases q : j = i
      · subst q
        rw [W.at_new]
        simp only [upd, if_true]; rw [h1]
      · refine Nat.le_trans ?_ (W.at_le x)
        simp only [upd, if_neg q]; exact I.le j x
    · intro rd
      have := Race.Step.unlock (hasPrev := hasPrev) (emb (s.past s.len) rd) h3 (by simp only [emb]; rw [h2, h4]; exact locked_lockedOf u)
      simp only [emb] at this ⊢
      rw [h2] at this
      rw [h2]
      exact this
  | sync i j =>
    refine ⟨I.msg, I.mono, I.same, I.cur, I.chain, I.last, ?_, I.one, ?_, I.step⟩
    · intro a w t e
      obtain ⟨h1, h2⟩ := I.hold a w t e
      refine ⟨?_, h2⟩
      by_cases q : a = i
      · subst q
        simp only [upd, if_true]
        funext x
        simp only [View.join]
        have := I.le j x
        rw [h1]; omega
      · simp only [upd, if_neg q]; exact h1
    · intro a x
      by_cases q : a = i
      · subst q
        simp only [upd, if_true, View.join]
        have := I.le j x
        have := I.le a x
        omega
      · simp only [upd, if_neg q]; exact I.le a x

theorem first {b : Leaf V} {w : NV.W} (h : Init b w s) : WI hasPrev s := by
  have hl := h.len
  have hm : ∀ l t m, s.mem l t = some m → t = 0 ∧ m = ⟨content b w l, fun _ => 0, 0⟩ := by
    intro l t m e
    rw [h.mem] at e
    simp only at e
    split at e
    · cases e; exact ⟨by assumption, rfl⟩
    · cases e
  refine ⟨?_, by omega, by omega, ?_, ?_, ?_, ?_, ?_, ?_, by omega⟩
  · intro l t m e
    obtain ⟨rfl, rfl⟩ := hm l t m e
    refine ⟨0, by omega, by rw [h.at_], ?_, by rw [h.at_]⟩
    unfold St.val; rw [h.past]
  · intro l; rw [hl, h.at_, h.mem]; exact ⟨_, rfl⟩
  · intro t0 m w' e _ _ hlt
    rw [hl, h.at_] at hlt; exact absurd hlt (by simp)
  · intro _ m e
    obtain ⟨_, rfl⟩ := hm _ _ _ e
    rw [hl, h.at_]
  · intro i w' t e; rw [h.pc] at e; cases e
  · intro i j w1 w2 t1 t2 e; rw [h.pc] at e; cases e
  · intro i l; rw [h.view]; exact Nat.zero_le _

end WI
end Verif.Weak
