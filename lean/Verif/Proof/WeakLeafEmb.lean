import Verif.Proof.WeakLeaf
set_option linter.unusedSimpArgs false
set_option linter.unusedVariables false
/-! A lookup of the release/acquire machine is a lookup of the sequentially consistent one, with the writers' stores moved to
where the lookup sees them. -/
namespace Verif.Weak
open Verif.Internode (upd)
open Verif.Perm (get size)
open Verif.Tree (Leaf Cell)
open Verif.Race (Micro WOp RPc Out rstep plan)
variable {V : Type}

/-- An execution of `N` steps. -/
def Exec (hasPrev : Bool) (σ : Nat → St V) (N : Nat) : Prop := ∀ n, n < N → Step hasPrev (σ n) (σ (n + 1))

/-- The lookup of `k` by thread `i` runs from step `n0` to step `n1` and ends with `r`. -/
structure Lookup (σ : Nat → St V) (i n0 n1 : Nat) (k : Key) (r : Out V) : Prop where
  le : n0 ≤ n1
  first : (σ n0).pc i = .rd (.stable k)
  during : ∀ n, n0 ≤ n → n < n1 → ∀ k' r', (σ n).pc i ≠ .rd (.done k' r')
  last : (σ n1).pc i = .rd (.done k r)

/-- Nothing in the first `s.len` stores changes later. -/
def Ext (s s' : St V) : Prop := s.len ≤ s'.len ∧ ∀ j, j ≤ s.len → s'.past j = s.past j ∧ s'.at_ j = s.at_ j

theorem Ext.refl (s : St V) : Ext s s := ⟨Nat.le_refl _, fun _ _ => ⟨rfl, rfl⟩⟩
theorem Ext.trans {a b c : St V} (h : Ext a b) (g : Ext b c) : Ext a c :=
  ⟨Nat.le_trans h.1 g.1, fun j hj => ⟨(g.2 j (Nat.le_trans hj h.1)).1.trans (h.2 j hj).1, (g.2 j (Nat.le_trans hj h.1)).2.trans (h.2 j hj).2⟩⟩

theorem Step.ext {hasPrev : Bool} {s s' : St V} (h : Step hasPrev s s') : Ext s s' := by
  cases h <;> first
    | exact ⟨Nat.le_refl _, fun _ _ => ⟨rfl, rfl⟩⟩
    | exact ⟨Nat.le_succ _, fun j hj => ⟨Verif.Internode.upd_ne _ _ _ (by omega), Verif.Internode.upd_ne _ _ _ (by omega)⟩⟩

theorem exec_ext {hasPrev : Bool} {σ : Nat → St V} {N : Nat} (he : Exec hasPrev σ N) {n m : Nat} (h : n ≤ m) (hm : m ≤ N) :
    Ext (σ n) (σ m) := by
  induction m with
  | zero => have : n = 0 := by omega
            subst this; exact Ext.refl _
  | succ m ih =>
    by_cases e : n = m + 1
    · subst e; exact Ext.refl _
    · exact (ih (by omega) (by omega)).trans (he m (by omega)).ext

theorem exec_wi {hasPrev : Bool} {σ : Nat → St V} {N : Nat} {b : Leaf V} {w : NV.W} (he : Exec hasPrev σ N) (h0 : Init b w (σ 0)) :
    ∀ n, n ≤ N → WI hasPrev (σ n) := by
  intro n
  induction n with
  | zero => intro _; exact WI.first h0
  | succ n ih => intro hn; exact (ih (by omega)).preserved (he n (by omega))

/-- The readers, of which only `i` does something. -/
def only (i : Nat) (pc : RPc V) : Nat → RPc V := upd (fun _ => .idle) i pc

/-- A sequentially consistent execution in which reader `i` looks up `k` and is at `pc` after the first `M` stores, and whose
lookup began after the first `j0`. -/
def Em (hasPrev : Bool) (past : Nat → Now V) (i j0 : Nat) (k : Key) (M : Nat) (pc : RPc V) : Prop :=
  ∃ (τ : Nat → Race.St V) (K a : Nat), Race.Exec hasPrev τ K ∧ τ 0 = emb (past 0) (fun _ => .idle) ∧ a ≤ K ∧ (τ a).rd i = .stable k ∧
    (∀ n, a ≤ n → n < K → ∀ k' r', (τ n).rd i ≠ .done k' r') ∧ τ K = emb (past M) (only i pc) ∧
    (∀ n, a ≤ n → n ≤ K → ∃ j rd, j0 ≤ j ∧ j ≤ M ∧ τ n = emb (past j) rd)

theorem Em.next {hasPrev : Bool} {past : Nat → Now V} {i j0 M M' : Nat} {k : Key} {pc pc' : RPc V} (h : Em hasPrev past i j0 k M pc)
    (hj : j0 ≤ M) (hM : M ≤ M') (hd : ∀ k' r', pc ≠ .done k' r') (st : Race.Step hasPrev (emb (past M) (only i pc)) (emb (past M') (only i pc'))) :
    Em hasPrev past i j0 k M' pc' := by
  obtain ⟨τ, K, a, h1, h2, h3, h4, h5, h6, h7⟩ := h
  refine ⟨fun n => if n ≤ K then τ n else emb (past M') (only i pc'), K + 1, a, ?_, ?_, by omega, ?_, ?_, ?_, ?_⟩
  · intro n hn
    by_cases e : n < K
    · simp only [if_pos (show n ≤ K by omega), if_pos (show n + 1 ≤ K by omega)]; exact h1 n e
    · have : n = K := by omega
      subst this
      simp only [if_pos (Nat.le_refl n), if_neg (show ¬ n + 1 ≤ n by omega)]
      rw [h6]; exact st
  · simp only [if_pos (Nat.zero_le K)]; exact h2
  · simp only [if_pos h3]; exact h4
  · intro n n1 n2 k' r'
    simp only [if_pos (show n ≤ K by omega)]
    by_cases e : n < K
    · exact h5 n n1 e k' r'
    · have : n = K := by omega
      subst this
      rw [h6]; simp only [emb, only, upd, if_true]; exact hd k' r'
  · simp only [if_neg (show ¬ K + 1 ≤ K by omega)]
  · intro n n1 n2
    by_cases e : n ≤ K
    · simp only [if_pos e]
      obtain ⟨j, rd, x1, x2, x3⟩ := h7 n n1 e
      exact ⟨j, rd, x1, by omega, x3⟩
    · simp only [if_neg e]; exact ⟨M', _, by omega, Nat.le_refl _, rfl⟩

theorem Em.go {hasPrev : Bool} {s : St V} (I : WI hasPrev s) {i j0 M N : Nat} {k : Key} {pc : RPc V} (h : Em hasPrev s.past i j0 k M pc)
    (hj : j0 ≤ M) (hM : M ≤ N) (hN : N ≤ s.len) (hd : ∀ k' r', pc ≠ .done k' r') : Em hasPrev s.past i j0 k N pc := by
  induction N with
  | zero => have : M = 0 := by omega
            subst this; exact h
  | succ N ih =>
    by_cases e : M = N + 1
    · subst e; exact h
    · exact (ih (by omega) (by omega)).next (by omega) (Nat.le_succ _) hd (I.step N (by omega) _)

theorem Em.begin {hasPrev : Bool} {s : St V} (I : WI hasPrev s) {i M : Nat} {k : Key} (hM : M ≤ s.len) :
    Em hasPrev s.past i M k M (.stable k) := by
  refine ⟨fun n => if n ≤ M then emb (s.past n) (fun _ => .idle) else emb (s.past M) (only i (.stable k)), M + 1, M + 1, ?_, by simp,
    Nat.le_refl _, by simp only [if_neg (show ¬ M + 1 ≤ M by omega)]; simp [emb, only, upd], by omega, by simp, ?_⟩
  · intro n hn
    by_cases e : n < M
    · simp only [if_pos (show n ≤ M by omega), if_pos (show n + 1 ≤ M by omega)]; exact I.step n (by omega) _
    · have : n = M := by omega
      subst this
      simp only [if_pos (Nat.le_refl n), if_neg (show ¬ n + 1 ≤ n by omega)]
      exact Race.Step.start (emb (s.past n) (fun _ => .idle)) i k (Or.inl rfl)
  · intro n n1 n2
    simp only [if_neg (show ¬ n ≤ M by omega)]
    exact ⟨M, _, Nat.le_refl _, Nat.le_refl _, rfl⟩

theorem only_step (i : Nat) (pc pc' : RPc V) : upd (only i pc) i pc' = only i pc' := by
  funext x; simp only [only, upd]; split <;> rfl

theorem Em.read {hasPrev : Bool} {past : Nat → Now V} {i j0 M : Nat} {k : Key} {pc : RPc V} (h : Em hasPrev past i j0 k M pc)
    (hj : j0 ≤ M) (hd : ∀ k' r', pc ≠ .done k' r') : Em hasPrev past i j0 k M (rstep (past M).b (past M).word pc) := by
  refine h.next hj (Nat.le_refl _) hd ?_
  have := Race.Step.read (hasPrev := hasPrev) (emb (past M) (only i pc)) i
  have e : (emb (past M) (only i pc)).rd i = pc := by simp [emb, only, upd]
  rw [e] at this
  simp only [emb] at this ⊢
  rw [only_step] at this
  exact this

/-- A step of a lookup depends on the field it loads only. -/
theorem rstep_loc {b b' : Leaf V} {w w' : NV.W} {pc : RPc V} (h : ∀ l, nextLoc pc = some l → content b w l = content b' w' l) :
    rstep b w pc = rstep b' w' pc := by
  cases pc with
  | idle => rfl
  | ikey k v p i =>
    simp only [nextLoc] at h
    simp only [rstep]
    by_cases e : i < size 5 p
    · rw [if_pos e, if_pos e]
      have := h _ (if_pos e)
      simp only [content, Val.num.injEq] at this
      rw [this]
    · rw [if_neg e, if_neg e]
  | done => rfl
  | _ =>
    have := h _ rfl
    simp only [content, Val.num.injEq, Val.word.injEq, Val.perm.injEq, Val.cell.injEq, Val.suf.injEq] at this
    simp only [rstep, this]

/-- Every step keeps the key of a lookup that is not finished. -/
theorem rstep_key (b : Leaf V) (w : NV.W) {pc : RPc V} {k : Key} (h : pc.key = some k) : (rstep b w pc).key = some k := by
  cases pc <;> simp only [rstep] <;> (repeat' split) <;> exact h

/-- A lookup seen from the end of the execution. -/
structure LI (hasPrev : Bool) (e s : St V) (i j0 : Nat) (k : Key) : Prop where
  ex : ∃ M pc, s.pc i = .rd pc ∧ j0 ≤ M ∧ M ≤ s.len ∧ (∀ l, e.at_ M l ≤ s.view i l) ∧ pc.key = some k ∧ Em hasPrev e.past i j0 k M pc

theorem LI.step {hasPrev : Bool} {e s s' : St V} {i j0 : Nat} {k : Key} (Ie : WI hasPrev e) (I : WI hasPrev s) (h : LI hasPrev e s i j0 k)
    (st : Step hasPrev s s') (hx : Ext s e) (hd : ∀ k' r', s.pc i ≠ .rd (.done k' r')) : LI hasPrev e s' i j0 k := by
  obtain ⟨M, pc, h1, h2, h3, h4, h5, h6⟩ := h.ex
  have hd' : ∀ k' r', pc ≠ .done k' r' := fun k' r' q => hd k' r' (h1.trans (by rw [q]))
  have hni : ¬ (s.pc i = .rd .idle ∨ ∃ k' r, s.pc i = .rd (.done k' r)) := by
    rintro (q | ⟨k', r, q⟩)
    · rw [h1] at q; injection q with q; rw [q] at h5; cases h5
    · exact hd _ _ q
  have hnh : ∀ w t, s.pc i ≠ .hold w t := by intro w t q; rw [h1] at q; cases q
  cases st with
  | start j k' h =>
    have q : i ≠ j := by rintro rfl; exact hni h
    exact ⟨M, pc, by simp only [upd, if_neg q]; exact h1, h2, h3, h4, h5, h6⟩
  | load j pc' l t m b w h hl ht hm hb =>
    by_cases q : i = j
    · subst q
      have : pc' = pc := by rw [h1] at h; injection h with h; exact h.symm
      subst this
      have hat : s.at_ M l ≤ t := by
        have := h4 l
        rw [(hx.2 M h3).2] at this; omega
      obtain ⟨N, n1, n2, n3, n4⟩ := I.read h3 hat hm
      refine ⟨N, rstep b w pc', by simp only [upd, if_true], by omega, n2, ?_, rstep_key b w h5, ?_⟩
      · intro x
        rw [(hx.2 N n2).2, ← n4 x]
        simp only [upd, if_true, View.set, View.join]
        have := h4 x
        rw [(hx.2 M h3).2] at this
        split
        · rename_i e; subst e; omega
        · omega
      · have g := ((h6.go Ie h2 n1 (Nat.le_trans n2 hx.1) hd').read (by omega) hd')
        have : rstep (e.past N).b (e.past N).word pc' = rstep b w pc' := by
          apply rstep_loc
          intro l' hl'
          rw [hl] at hl'; injection hl' with hl'; subst hl'
          rw [hb, n3, St.val, (hx.2 N n2).1]
        rw [this] at g; exact g
    · exact ⟨M, pc, by simp only [upd, if_neg q]; exact h1, h2, h3, by simp only [upd, if_neg q]; exact h4, h5, h6⟩
  | tau j pc' b w h hl =>
    by_cases q : i = j
    · subst q
      have : pc' = pc := by rw [h1] at h; injection h with h; exact h.symm
      subst this
      refine ⟨M, rstep b w pc', by simp only [upd, if_true], h2, h3, h4, rstep_key b w h5, ?_⟩
      have g := h6.read h2 hd'
      have : rstep (e.past M).b (e.past M).word pc' = rstep b w pc' := by
        apply rstep_loc
        intro l' hl'
        rw [hl] at hl'; cases hl'
      rw [this] at g; exact g
    · exact ⟨M, pc, by simp only [upd, if_neg q]; exact h1, h2, h3, h4, h5, h6⟩
  | peek j t m ht hm =>
    refine ⟨M, pc, h1, h2, h3, fun l => Nat.le_trans (h4 l) ?_, h5, h6⟩
    by_cases q : i = j
    · subst q
      simp only [upd, if_true, View.set]
      split
      · rename_i e; subst e; exact ht
      · exact Nat.le_refl _
    · simp only [upd, if_neg q]; exact Nat.le_refl _
  | lock j op t0 t m w b h ht hm hw hlk hlt hg hb hk =>
    have q : i ≠ j := by rintro rfl; exact hni h
    exact ⟨M, pc, by simp only [upd, if_neg q]; exact h1, h2, Nat.le_succ_of_le h3, by simp only [upd, if_neg q]; exact h4, h5, h6⟩
  | store j w m ms t h ht hf =>
    have q : i ≠ j := by rintro rfl; exact hnh _ _ h
    exact ⟨M, pc, by simp only [upd, if_neg q]; exact h1, h2, Nat.le_succ_of_le h3, by simp only [upd, if_neg q]; exact h4, h5, h6⟩
  | unlock j w t h ht hf =>
    have q : i ≠ j := by rintro rfl; exact hnh _ _ h
    exact ⟨M, pc, by simp only [upd, if_neg q]; exact h1, h2, Nat.le_succ_of_le h3, by simp only [upd, if_neg q]; exact h4, h5, h6⟩
  | sync a c =>
    refine ⟨M, pc, h1, h2, h3, fun l => Nat.le_trans (h4 l) ?_, h5, h6⟩
    by_cases q : i = a
    · subst q
      simp only [upd, if_true, View.join]; omega
    · simp only [upd, if_neg q]; exact Nat.le_refl _

/-- **The embedding.** A lookup of the weak machine is a lookup of the sequentially consistent one. -/
theorem embed {hasPrev : Bool} {σ : Nat → St V} {N : Nat} {b : Leaf V} {w : NV.W} (he : Exec hasPrev σ N) (h0 : Init b w (σ 0))
    {i n0 n1 j0 : Nat} (hN : n1 ≤ N) {k : Key} {r : Out V} (hl : Lookup σ i n0 n1 k r) (hk : Knows (σ n0) i j0) :
    ∃ (M K a : Nat) (τ : Nat → Race.St V), j0 ≤ M ∧ Knows (σ n1) i M ∧ Race.Exec hasPrev τ K ∧ τ 0 = emb ((σ n1).past 0) (fun _ => .idle) ∧
      Race.Lookup τ i a K k r ∧ (∀ n, a ≤ n → n ≤ K → ∃ j rd, j0 ≤ j ∧ j ≤ M ∧ τ n = emb ((σ n1).past j) rd) := by
  have hI := exec_wi he h0
  have key : ∀ d, n0 + d ≤ n1 → LI hasPrev (σ n1) (σ (n0 + d)) i j0 k := by
    intro d
    induction d with
    | zero =>
      intro _
      have hx := exec_ext he hl.le hN
      exact ⟨j0, .stable k, hl.first, Nat.le_refl _, hk.1, fun l => by rw [(hx.2 _ hk.1).2]; exact hk.2 l, rfl,
        Em.begin (hI n1 hN) (Nat.le_trans hk.1 hx.1)⟩
    | succ d ih =>
      intro hd
      exact (ih (by omega)).step (hI n1 hN) (hI _ (by omega)) (he _ (by omega)) (exec_ext he (by omega) hN) (hl.during _ (by omega) (by omega))
  have := hl.le
  obtain ⟨M, pc, h1, h2, h3, h4, h5, τ, K, a, t1, t2, t3, t4, t5, t6, t7⟩ := (key (n1 - n0) (by omega)).ex
  have e : n0 + (n1 - n0) = n1 := by omega
  rw [e] at h1 h3 h4
  have : pc = .done k r := by rw [hl.last] at h1; injection h1 with h1; exact h1.symm
  subst this
  refine ⟨M, K, a, τ, h2, ⟨h3, h4⟩, t1, t2, ⟨t3, t4, t5, ?_⟩, t7⟩
  rw [t6]; simp [emb, only, upd]

end Verif.Weak
