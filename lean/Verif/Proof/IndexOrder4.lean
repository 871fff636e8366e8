import Verif.Proof.IndexOrder3
import Verif.Proof.IndexLive
set_option linter.unusedSimpArgs false
set_option linter.unusedVariables false
/-! The order of keys is kept by every step whose descents do not pass validation at a locked node. -/
namespace Verif.Index
open Verif.Internode
variable {V : Type}

theorem step_order {strict main : Bool} {s : Heap V} {c : Pc V} {O B : Nat → Prop} (P : Pre main s c O B) (I : OInv s) (R : ROk s c)
    (hc : ∀ o r p w x, c = .chk o r p w x → changed strict (s.node p) w = false → (s.node p).locked = false)
    (hr : ∀ x, c = .par x → x.rounds < maxRounds) :
    OPost s c (step strict main s c).1 (step strict main s c).2 := by
  have H := P.H
  have ok := P.ok
  have rd : ∀ c' : Pc V, (∀ t v x, c' ≠ .done (.insert t v) x) → ROk s c' → OPost s c s c' :=
    fun c' a b => OPost.read I (fun t v x h => absurd h (a t v x)) b
  cases c with
  | idle => exact OPost.read I (fun _ _ _ h => by cases h) trivial
  | done o x => exact OPost.read I (fun _ _ _ h => rfl) trivial
  | fail o e => exact absurd ok id
  | climb o p =>
    simp only [step]
    have R : (s.node p).lo = 0 := R
    split
    · exact rd _ (by simp) ⟨R, by rw [R]; omega⟩
    · rename_i h0
      refine rd _ (by simp) ?_
      obtain ⟨a, b, k, k1, k2⟩ := H.par p ok h0
      show (s.node (s.node p).parent).lo = 0
      by_cases e : k = 0
      · have := I.fst _ a b
        rw [← e, k2, R] at this; exact this.symm
      · have h1 := I.key _ a b (k - 1) (by omega)
        rw [show k - 1 + 1 = k by omega, k2, R] at h1
        have := I.abv _ a b (k - 1) (by omega)
        omega
  | stab o r p =>
    simp only [step]
    split
    · exact rd _ (by simp) R
    · split
      · cases o with
        | get t => exact rd _ (by simp) ⟨R.2, t, rfl⟩
        | insert t v => exact rd _ (by simp) R
      · exact rd _ (by simp) ⟨R.1, R.2, vle_refl _⟩
  | nk o r p w =>
    simp only [step]
    exact rd _ (by simp) ⟨R.1, R.2.1, R.2.2, fun _ => ⟨by omega, by omega, by intro j hj; omega⟩⟩
  | cmp o r p w a b =>
    obtain ⟨R1, R2, R3, R4⟩ := R
    have same : Fresh s p w → (s.node p).arr = (s.node p).base := by
      intro f
      refine H.same p ok.2.1 ?_
      rintro (h | h)
      · have := (P.hB _ h).2.1; rw [f.2] at this; cases this
      · exact h
    simp only [step]
    split
    · rename_i hab
      split
      · exact rd _ (by simp) ⟨R1, R2, R3, fun f => ⟨(R4 f).1, by have := (R4 f).2.1; omega, (R4 f).2.2⟩⟩
      · have asc : Fresh s p w → ∀ j, j < (a + b) / 2 + 1 → (s.node p).arr.ikey j ≤ (s.node p).arr.ikey ((a + b) / 2) := by
          intro f j hj
          have e := same f
          by_cases q : j = (a + b) / 2
          · rw [q]; exact Nat.le_refl _
          · rw [e]; exact Nat.le_of_lt (I.srt p ok.2.1 ok.2.2 j _ (by omega) (by rw [← e]; have := (R4 f).2.1; omega))
        split
        · rename_i h1 h2
          refine rd _ (by simp) ⟨R1, R2, R3, fun f => ⟨by have := (R4 f).2.1; omega, fun j hj => ?_⟩⟩
          have := asc f j hj; omega
        · rename_i h1 h2
          refine rd _ (by simp) ⟨R1, R2, R3, fun f => ⟨by have := (R4 f).2.1; omega, (R4 f).2.1, fun j hj => ?_⟩⟩
          have := asc f j hj; omega
    · exact rd _ (by simp) ⟨R1, R2, R3, fun f => ⟨(R4 f).1, (R4 f).2.2⟩⟩
  | chld o r p w i =>
    obtain ⟨R1, R2, R3, R4⟩ := R
    simp only [step]
    split
    · exact rd _ (by simp) ⟨R1, by rw [R1]; omega⟩
    · refine rd _ (by simp) ⟨R1, R2, R3, fun f => ?_⟩
      have e : (s.node p).arr = (s.node p).base := by
        refine H.same p ok.2.1 ?_
        rintro (h | h)
        · have := (P.hB _ h).2.1; rw [f.2] at this; cases this
        · exact h
      obtain ⟨g1, g2⟩ := R4 f
      rw [e] at g1 g2 ⊢
      by_cases q : i = 0
      · rw [q, I.fst p ok.2.1 ok.2.2]; exact R2
      · have := I.key p ok.2.1 ok.2.2 (i - 1) (by omega)
        rw [show i - 1 + 1 = i by omega] at this
        rw [this]; exact g2 _ (by omega)
  | chk o r p w x =>
    obtain ⟨R1, R2, R3, R4⟩ := R
    simp only [step]
    split
    · exact rd _ (by simp) ⟨R1, R2⟩
    · rename_i h
      have h : changed strict (s.node p) w = false := by simpa using h
      refine rd _ (by simp) ⟨R1, R4 ⟨?_, hc _ _ _ _ _ rfl h⟩⟩
      simp only [changed, Bool.or_eq_false_iff, bne_eq_false_iff_eq] at h
      exact Prod.ext h.1.1.1 h.1.1.2
  | chk2 o r p w =>
    simp only [step]
    split
    · exact rd _ (by simp) ⟨R.1, by rw [R.1]; omega⟩
    · exact rd _ (by simp) R
  | look o l =>
    simp only [step]
    split
    · exact rd _ (by simp) R
    · obtain ⟨_, t, rfl⟩ := R
      split
      · exact rd _ (by simp) trivial
      · exact rd _ (by simp) ⟨by assumption, t, rfl⟩
  | nxt o l =>
    obtain ⟨_, t, rfl⟩ := R
    simp only [step]
    split
    · rename_i h; exact rd _ (by simp) ⟨h.2, t, rfl⟩
    · exact rd _ (by simp) trivial
  | adv o r k l =>
    cases k with
    | zero => simp only [step]; exact rd _ (by simp) R.1
    | succ k =>
      simp only [step]
      split
      · rename_i h; exact rd _ (by simp) ⟨R.1, h.2⟩
      · exact rd _ (by simp) R
  | sect o r l =>
    obtain ⟨h1, h2, h3, t, v, rfl⟩ := ok
    simp only [step]
    split
    · exact rd _ (by simp) R
    · rename_i hl
      have hl : (s.node l).locked = false := by simpa using hl
      split
      · have e : ∀ n, ((s.mod l fun n => n.lock.unlock).node n).ht = (s.node n).ht ∧ ((s.mod l fun n => n.lock.unlock).node n).lo = (s.node n).lo ∧
            ((s.mod l fun n => n.lock.unlock).node n).ents = (s.node n).ents ∧
            ((s.mod l fun n => n.lock.unlock).node n).next = (s.node n).next ∧
            (0 < (s.node n).ht → ((s.mod l fun n => n.lock.unlock).node n).base = (s.node n).base) := by
          intro n
          rw [mod_node]
          split
          · rename_i g; subst g; simp [Node.lock, h3]
          · simp
        obtain ⟨a, b⟩ := OInv.congr (s' := s.mod l fun n => n.lock.unlock) H I rfl rfl rfl (fun n _ => e n)
        refine ⟨?_, New.same rfl, a, ?_, .inr ⟨b, fun _ _ _ h => by cases h⟩⟩
        · exact (Ver.refl s).mod l (fun n => n.lock.unlock) (NVer.trans (b := (s.node l).lock) (.of_locked rfl rfl) (.unlock _))
        · show ((s.mod l fun n => n.lock.unlock).node r).lo = 0
          rw [(e r).2.1]; exact R.1
      · rename_i hn
        have Q := OPost.put P I R hl hn
        split
        · rename_i old g; rw [g] at Q; exact Q
        · rename_i g
          rw [g] at Q
          split
          · exact Q
          · rename_i hf
            exact OPost.leaf P I R hl hf _ rfl rfl rfl rfl
  | par x =>
    have h1 : CtxOk main s x := ok
    have C : CtxO s x := R
    have hr' : ¬ maxRounds ≤ x.rounds := by have := hr x rfl; omega
    simp only [step, if_neg hr']
    by_cases h0 : (s.node x.l).parent = 0
    · rw [if_pos h0]
      have G := OPost.grow P I C h0
      have htl : x.l = s.top := by
        rcases H.orph x.l h1.al h0 with h | h | h
        · exact h
        · exact absurd (by simp [holds]) (P.hO _ h).2.2
        · exact absurd h h1.ne
      have hf := h1.flags
      cases main with
      | true =>
        simp only [if_true] at hf
        rw [hf.1, hf.2 htl]
        simp only [Bool.false_eq_true, if_false, if_true]
        rw [if_pos (by rw [H.rootTop rfl, htl])]
        exact G
      | false =>
        simp only [Bool.false_eq_true, if_false] at hf
        rw [hf.2 htl]
        exact G
    · rw [if_neg h0]
      exact rd _ (by simp) ⟨C.ly, C.ll, C.nb, C.lr⟩
  | lck x p =>
    have C : CtxO s x := R
    simp only [step]
    split
    · exact rd _ (by simp) R
    · have e : ∀ n, ((s.mod p Node.lock).node n).ht = (s.node n).ht ∧ ((s.mod p Node.lock).node n).lo = (s.node n).lo ∧
          ((s.mod p Node.lock).node n).ents = (s.node n).ents ∧ ((s.mod p Node.lock).node n).next = (s.node n).next ∧
          ((s.mod p Node.lock).node n).base = (s.node n).base := by
        intro n
        rw [mod_node]
        split
        · rename_i g; subst g; simp [Node.lock]
        · simp
      obtain ⟨a, b⟩ := OInv.congr (s' := s.mod p Node.lock) H I rfl rfl rfl (fun n _ => ⟨(e n).1, (e n).2.1, (e n).2.2.1, (e n).2.2.2.1, fun _ => (e n).2.2.2.2⟩)
      refine ⟨(Ver.refl s).mod p _ (.of_locked rfl rfl), New.same rfl, a, ?_, .inr ⟨b, fun _ _ _ h => by cases h⟩⟩
      refine ⟨?_, ?_, ?_, ?_⟩
      · rw [(e _).2.1]; exact C.ly
      · rw [(e _).2.1]; exact C.ll
      · intro z hz; rw [(e _).1, (e _).1, (e _).2.1, (e _).2.1]; exact C.nb z hz
      · rw [(e _).2.1]; exact C.lr
  | rechk x p =>
    have C : CtxO s x := R
    obtain ⟨h1, h2, h3, hs⟩ := ok
    have hB : ¬ B p := fun hb => (P.hB _ hb).2.2 (by simp [holds])
    have hbp := H.same p h2 (by intro h; rcases h with h | h; exact hB h; exact h)
    have U : ∀ x' : Ctx V, x'.l = x.l → x'.y = x.y → x'.sep = x.sep → x'.r = x.r → OPost s (.rechk x p) (s.mod p Node.unlock) (.par x') := by
      intro x' a1 a2 a3 a4
      have e : ∀ n, ((s.mod p Node.unlock).node n).ht = (s.node n).ht ∧ ((s.mod p Node.unlock).node n).lo = (s.node n).lo ∧
          ((s.mod p Node.unlock).node n).ents = (s.node n).ents ∧ ((s.mod p Node.unlock).node n).next = (s.node n).next ∧
          ((s.mod p Node.unlock).node n).base = (s.node n).base := by
        intro n
        rw [mod_node]
        split
        · rename_i g; subst g; simp [hbp]
        · simp
      obtain ⟨a, b⟩ := OInv.congr (s' := s.mod p Node.unlock) H I rfl rfl rfl (fun n _ => ⟨(e n).1, (e n).2.1, (e n).2.2.1, (e n).2.2.2.1, fun _ => (e n).2.2.2.2⟩)
      refine ⟨(Ver.refl s).mod p _ (.unlock _), New.same rfl, a, ?_, .inr ⟨b, fun _ _ _ h => by cases h⟩⟩
      refine ⟨?_, ?_, ?_, ?_⟩
      · rw [a2, a3, (e _).2.1]; exact C.ly
      · rw [a1, a3, (e _).2.1]; exact C.ll
      · intro z hz; rw [a1, a2, a3, (e _).1, (e _).1, (e _).2.1, (e _).2.1]; exact C.nb z hz
      · rw [a4, (e _).2.1]; exact C.lr
    simp only [step]
    split
    · exact U _ rfl rfl rfl rfl
    · rename_i h5
      have h5 : (s.node x.l).parent = p := by simpa using h5
      have h0 : (s.node x.l).parent ≠ 0 := by rw [h5]; have := h2.1; omega
      obtain ⟨m1, m2, k, m3, m4⟩ := H.par x.l h1.al h0
      rw [h5, ← hbp] at m3 m4
      split
      · rename_i hn
        exact absurd m4 (findChild_none hn k (by omega) (by omega))
      · rename_i idx hc
        split
        · exact rd _ (by simp) ⟨C.ly, C.ll, C.nb, C.lr⟩
        · rename_i hfull
          exact OPost.inode P I C h5 hc hfull _ rfl rfl rfl rfl
  | ins x p todo =>
    have C : CtxO s x := R
    cases todo with
    | nil => exact OPost.fin P I C
    | cons st todo =>
      simp only [step]
      have e : ∀ n, ((s.mod p fun n => { n with arr := st.apply n.arr }).node n).ht = (s.node n).ht ∧
          ((s.mod p fun n => { n with arr := st.apply n.arr }).node n).lo = (s.node n).lo ∧
          ((s.mod p fun n => { n with arr := st.apply n.arr }).node n).ents = (s.node n).ents ∧
          ((s.mod p fun n => { n with arr := st.apply n.arr }).node n).next = (s.node n).next ∧
          ((s.mod p fun n => { n with arr := st.apply n.arr }).node n).base = (s.node n).base := by
        intro n
        rw [mod_node]
        split
        · rename_i g; subst g; simp
        · simp
      obtain ⟨a, b⟩ := OInv.congr (s' := s.mod p fun n => { n with arr := st.apply n.arr }) H I rfl rfl rfl
        (fun n _ => ⟨(e n).1, (e n).2.1, (e n).2.2.1, (e n).2.2.2.1, fun _ => (e n).2.2.2.2⟩)
      refine ⟨(Ver.refl s).mod p _ (.of_locked rfl (P.K p (by simp [holds])).2), New.same rfl, a, ?_, .inr ⟨b, fun _ _ _ h => by cases h⟩⟩
      refine ⟨?_, ?_, ?_, ?_⟩
      · rw [(e _).2.1]; exact C.ly
      · rw [(e _).2.1]; exact C.ll
      · intro z hz; rw [(e _).1, (e _).1, (e _).2.1, (e _).2.1]; exact C.nb z hz
      · rw [(e _).2.1]; exact C.lr

end Verif.Index
