import Verif.Prop.OpsEnd
import Verif.Proof.OpsBound
set_option linter.unusedSimpArgs false
set_option linter.unusedVariables false
/-! Where a lookup is, while inserts are under way: it is in a layer its key leads to, at leaves that are in the chain. -/
namespace Verif.Ops
open Verif.Internode (upd upd_same upd_ne)
open Verif.Spec (Bytes)
open Verif.Index (Al)
open Verif.Whole (Inside inIndex)
variable {V : Type} {fixed strict : Bool} {τ : Nat → St V} {β : Nat → Option (Act V)} {N : Nat}

/-- The search in a leaf is for this key. -/
def RKey (k : Key) : Race.RPc V → Prop
  | .idle => False
  | .stable k' | .perm k' _ | .ikey k' _ _ _ | .klx k' _ _ _ | .ptr k' _ _ _ _ | .sufKlx k' _ _ _ _ | .suf k' _ _ _ _ | .check k' _ _ | .dirty k'
  | .done k' _ => k' = k

/-- The lookup is at leaves of the chain, and for this key. -/
def RdOk (c : Chain.St V) (k : Key) : Chain.CPc V → Prop
  | .idle => False
  | .leaf x p => c.live x = true ∧ RKey k p
  | .adv1 x k' _ | .adv2 x k' _ _ | .adv3 x k' _ | .next x k' => c.live x = true ∧ k' = k
  | .adv4 x0 x k' | .adv5 x0 x k' _ => c.live x0 = true ∧ c.live x = true ∧ k' = k
  | .adv6 x0 x k' _ z => c.live x0 = true ∧ c.live x = true ∧ c.live z = true ∧ k' = k
  | .bound _ k' z => c.live z = true ∧ k' = k
  | .done _ _ _ => True

theorem RdOk.mono {c c' : Chain.St V} {k : Key} (h : ∀ x, c.live x = true → c'.live x = true) {p : Chain.CPc V} (hp : RdOk c k p) : RdOk c' k p := by
  cases p with
  | idle => exact hp
  | leaf x p => exact ⟨h _ hp.1, hp.2⟩
  | adv1 x k' v => exact ⟨h _ hp.1, hp.2⟩
  | adv2 x k' v w => exact ⟨h _ hp.1, hp.2⟩
  | adv3 x k' v => exact ⟨h _ hp.1, hp.2⟩
  | next x k' => exact ⟨h _ hp.1, hp.2⟩
  | adv4 x0 x k' => exact ⟨h _ hp.1, h _ hp.2.1, hp.2.2⟩
  | adv5 x0 x k' v => exact ⟨h _ hp.1, h _ hp.2.1, hp.2.2⟩
  | adv6 x0 x k' v z => exact ⟨h _ hp.1, h _ hp.2.1, h _ hp.2.2.1, hp.2.2.2⟩
  | bound x k' z => exact ⟨h _ hp.1, hp.2⟩
  | done k' r w => trivial

theorem RKey.step {k : Key} {b : Tree.Leaf V} {w : NV.W} {p : Race.RPc V} (h : RKey k p) : RKey k (Race.rstep b w p) := by
  cases p with
  | idle => exact h
  | stable k' => simp only [Race.rstep]; split <;> exact h
  | perm k' v => exact h
  | ikey k' v p i => simp only [Race.rstep]; (repeat' split) <;> exact h
  | klx k' v p i => exact h
  | ptr k' v p i x => simp only [Race.rstep]; (repeat' split) <;> exact h
  | sufKlx k' v p i c => simp only [Race.rstep]; (repeat' split) <;> exact h
  | suf k' v p i c => simp only [Race.rstep]; (repeat' split) <;> exact h
  | check k' v s => simp only [Race.rstep]; (repeat' split) <;> exact h
  | dirty k' => simp only [Race.rstep]; (repeat' split) <;> exact h
  | done k' r => exact h

theorem RdOk.ret {c : Chain.St V} {k : Key} {x0 x : Nat} {ver : NV.W} (h0 : c.live x0 = true) (h : c.live x = true) : RdOk c k (Chain.advRet x0 x k ver) := by
  unfold Chain.advRet
  split
  · exact ⟨h0, rfl⟩
  · exact ⟨h, rfl⟩

theorem RdOk.step {c : Chain.St V} {k : Key} (I : Chain.Inv c) {p : Chain.CPc V} (h : RdOk c k p) : RdOk c k (Chain.cstep fixed c.leaf p) := by
  cases p with
  | idle => exact h
  | done k' r w => trivial
  | leaf x p =>
    obtain ⟨h1, h2⟩ := h
    have st := fun b w => RKey.step (b := b) (w := w) h2
    cases p with
    | idle => exact h2
    | done k' r => trivial
    | perm k' v =>
      simp only [Chain.cstep]
      split
      · exact ⟨h1, h2⟩
      · exact ⟨h1, st _ _⟩
    | check k' v s =>
      simp only [Chain.cstep]
      split
      · exact ⟨h1, h2⟩
      · exact ⟨h1, st _ _⟩
    | dirty k' =>
      simp only [Chain.cstep]
      split
      · exact ⟨h1, h2⟩
      · exact ⟨h1, h2⟩
    | _ => exact ⟨h1, st _ _⟩
  | adv1 x k' v => simp only [Chain.cstep]; split <;> exact h
  | adv2 x k' v w =>
    simp only [Chain.cstep]
    split
    · exact ⟨h.1, h.1, h.2⟩
    · exact h
  | adv3 x k' v =>
    simp only [Chain.cstep]
    split
    · exact ⟨h.1, h.1, h.2⟩
    · obtain ⟨h1, rfl⟩ := h; exact .ret h1 h1
  | adv4 x0 x k' => simp only [Chain.cstep]; split <;> exact h
  | adv5 x0 x k' v =>
    simp only [Chain.cstep]
    split
    · exact h
    · obtain ⟨h1, h2, rfl⟩ := h
      split
      · exact .ret h1 h2
      · rename_i g; exact ⟨h1, h2, (I.link x h2 g).1, rfl⟩
  | adv6 x0 x k' v z =>
    simp only [Chain.cstep]
    obtain ⟨h1, h2, h3, rfl⟩ := h
    split
    · exact ⟨h1, h3, rfl⟩
    · exact .ret h1 h2
  | next x k' =>
    simp only [Chain.cstep]
    obtain ⟨h1, rfl⟩ := h
    split
    · split
      · exact ⟨h1, rfl⟩
      · trivial
    · split
      · trivial
      · rename_i g; exact ⟨(I.link x h1 g).1, rfl⟩
  | bound x k' z =>
    simp only [Chain.cstep]
    obtain ⟨h1, rfl⟩ := h
    split
    · exact ⟨h1, rfl⟩
    · trivial

/-- Where the lookup of `d` by thread `i` is. -/
def Trk (s : Whole.St V) (d : Bytes) (i : Nat) : Ph V → Prop
  | .enter L m => Where s d L m
  | .down L m => Where s d L m ∧ (s.side L).key i = kat d m ∧ Inside s L i ∧
      (inIndex ((s.side L).ix.pc i) = true ∨ ∃ o l, (s.side L).ix.pc i = .look o l)
  | .read L m => Where s d L m ∧ RdOk (s.f.layer L) (kat d m) ((s.f.layer L).rd i)
  | _ => True

theorem Where.later (E : Exec fixed strict τ β) (C : Clean strict τ β N) {n n' : Nat} (h : n ≤ n') (hn : n' ≤ N) {d : Bytes} {L m : Nat}
    (hw : Where (τ n).w d L m) : Where (τ n').w d L m := by
  have F := E.whole.forest C
  have e : ∀ k, k ≤ N → Whole.upTo N (tree τ) k = (τ k).w.f := fun k hk => Whole.upTo_eq hk
  have hu : (Whole.upTo N (tree τ) n).up L = true := by rw [e n (by omega)]; exact hw.up
  have hm := (F.basic n).made L hu
  have h1 := F.up_mono h hu
  have h2 := F.pre_mono h hm
  rw [e n' hn] at h1 h2
  rw [e n (by omega)] at h2
  exact ⟨h1, by rw [h2]; exact hw.under, by rw [h2]; exact hw.len⟩

theorem get_step {q : Index.Pc Unit} {h : Index.Heap Unit} {main : Bool} (g : GetPc q) (g1 : q ≠ .idle) (g2 : ∀ o x, q ≠ .done o x) (g3 : inIndex q = true) (g4 : ∀ o e, q ≠ .fail o e) :
    (Index.step strict main h q).2 ≠ .idle ∧ (∀ o x, (Index.step strict main h q).2 ≠ .done o x) ∧
      (inIndex (Index.step strict main h q).2 = true ∨ ∃ o l, (Index.step strict main h q).2 = .look o l) := by
  have triv : ∀ c : Index.Pc Unit, (match c with | .idle | .done _ _ | .nxt _ _ | .adv _ _ _ _ | .sect _ _ _ => False | _ => True) →
      c ≠ .idle ∧ (∀ o x, c ≠ .done o x) ∧ (inIndex c = true ∨ ∃ o l, c = .look o l) := by
    intro c hc
    cases c <;> first | (exact absurd hc id) | exact ⟨nofun, nofun, .inl rfl⟩ | exact ⟨nofun, nofun, .inr ⟨_, _, rfl⟩⟩
  apply triv
  cases q with
  | idle => exact absurd rfl g1
  | done o x => exact absurd rfl (g2 o x)
  | fail o e => exact absurd rfl (g4 o e)
  | look o l => cases g3
  | nxt o l => cases g3
  | climb o p =>
    simp only [Index.step]
    by_cases h1 : (h.node p).parent = 0
    · rw [if_pos h1]; trivial
    · rw [if_neg h1]; trivial
  | stab o r p =>
    obtain ⟨t, rfl⟩ := g
    simp only [Index.step]
    by_cases h1 : (h.node p).locked = true
    · rw [if_pos h1]; trivial
    · rw [if_neg h1]
      by_cases h2 : (h.node p).ht = 0
      · rw [if_pos h2]; trivial
      · rw [if_neg h2]; trivial
  | nk o r p w => trivial
  | cmp o r p w a b =>
    simp only [Index.step]
    by_cases h1 : a < b
    · rw [if_pos h1]
      by_cases h2 : o.key < (h.node p).arr.ikey ((a + b) / 2)
      · rw [if_pos h2]; trivial
      · rw [if_neg h2]
        by_cases h3 : o.key = (h.node p).arr.ikey ((a + b) / 2)
        · rw [if_pos h3]; trivial
        · rw [if_neg h3]; trivial
    · rw [if_neg h1]; trivial
  | chld o r p w j =>
    simp only [Index.step]
    by_cases h1 : (h.node p).arr.child j = 0
    · rw [if_pos h1]; trivial
    · rw [if_neg h1]; trivial
  | chk o r p w c =>
    simp only [Index.step]
    by_cases h1 : Index.changed strict (h.node p) w = true
    · rw [if_pos h1]; trivial
    · rw [if_neg h1]; trivial
  | chk2 o r p w =>
    simp only [Index.step]
    by_cases h1 : (h.node p).vs ≠ w.1
    · rw [if_pos h1]; trivial
    · rw [if_neg h1]; trivial
  | _ => exact absurd g id

/-- A lookup under way is where it should be. -/
theorem Open.track (E : Exec fixed strict τ β) {i a b : Nat} {d : Bytes} (h : Open τ β i (.get d) a b) (C : Clean strict τ β (b + 1))
    (hr : Forest.Few (Whole.leaves (tree τ)) a b) (hz : d = [] → ∀ j, a ≤ j → j ≤ b → ¬ Forest.InTransit (τ j).w.f d) :
    ∀ n, a < n → n ≤ b + 1 → Trk (τ n).w d i ((τ n).ph i) := by
  have mono : ∀ n, n ≤ b → ∀ L, (τ n).w.f.up L = true → ∀ x, ((τ n).w.f.layer L).live x = true → ((τ (n + 1)).w.f.layer L).live x = true :=
    fun n hn L hu x hx => (E.bound_stays C (Nat.le_succ n) (by omega) ((E.know C (n := n) (by omega)).ok.basic.made L hu) hx).2.1
  intro n
  induction n using Nat.strongRecOn with
  | ind n' all =>
    cases n' with
    | zero => intro h1; cases h1
    | succ n =>
    have ih := all n (Nat.lt_succ_self n)
    intro h1 h2
    by_cases e : n = a
    · subst e
      rw [h.starts E]
      exact Where.start E C h2 d
    have ih := ih (by omega) (by omega)
    have K := E.know C (n := n) (by omega)
    have wh : ∀ {L m}, Where (τ n).w d L m → Where (τ (n + 1)).w d L m := fun hw => hw.later E C (Nat.le_succ n) (by omega)
    by_cases hrun : Runs β i n
    case neg =>
      rw [h.other E (by omega) (by omega) hrun]
      have F := E.still C (by omega) hrun
      cases ep : (τ n).ph i with
      | enter L m => rw [ep] at ih; exact wh ih
      | down L m =>
        rw [ep] at ih
        obtain ⟨i1, i2, i3, i4⟩ := ih
        exact ⟨wh i1, by rw [F.key L]; exact i2, (Inside.frame F).2 i3, by rw [F.pc L]; exact i4⟩
      | read L m =>
        rw [ep] at ih
        obtain ⟨i1, i2⟩ := ih
        exact ⟨wh i1, by rw [F.rd L (K.ok.basic.made L i1.up)]; exact i2.mono (mono n (by omega) L i1.up)⟩
      | _ => trivial
    case pos =>
    obtain ⟨y, qs, er⟩ := hrun
    have ho := h.op E n (by omega) (by omega)
    have P := E.phases C n (by omega) i
    rw [ho] at P
    have hs : τ (n + 1) = act fixed strict (τ n) (.run i y qs) := by
      have := E.steps n
      rw [er] at this; exact this
    have eph : (τ (n + 1)).ph i = (next (τ n) i y qs).2 := by rw [hs]; exact upd_same _ _ _
    have go : ∀ p : Pos V, p.ok (τ n).w → At (τ n) i d p → At (τ (n + 1)) i d (pace fixed strict (τ n).w d p) := fun p hp hA => by
      rw [hs]; exact at_step (Same.refl _) K ho P hp hA
    cases ep : (τ n).ph i with
    | enter L m =>
      rw [ep] at ih
      have ih : Where (τ n).w d L m := ih
      obtain ⟨g1, g2, g3⟩ := go (.enter L m) ih.up ep
      rw [g1]
      refine ⟨wh ih, g3, ?_, .inl ?_⟩
      · unfold Inside; rw [g2]; exact ⟨nofun, nofun⟩
      · rw [g2]; rfl
    | down L m =>
      rw [ep] at ih
      obtain ⟨i1, i2, i3, i4⟩ := ih
      have O := K.ok.ok L (K.ok.basic.made L i1.up)
      have g := go (.down L m (((τ n).w.side L).ix.pc i)) ⟨i1.up, i4⟩ ⟨ep, rfl, i2⟩
      by_cases hl : ∃ o l, ((τ n).w.side L).ix.pc i = .look o l
      · obtain ⟨o, l, hl⟩ := hl
        rw [hl] at g
        obtain ⟨g1, g2⟩ := g
        rw [g1]
        refine ⟨wh i1, ?_⟩
        rw [g2]
        have pk := O.F.I.ok i
        rw [show ((τ n).w.lay L).s.ix.pc i = .look o l from hl] at pk
        exact ⟨mono n (by omega) L i1.up _ (O.down l pk.1 pk.2).1, rfl⟩
      · have i4 : inIndex (((τ n).w.side L).ix.pc i) = true := i4.resolve_right hl
        have eg : pace fixed strict (τ n).w d (.down L m (((τ n).w.side L).ix.pc i)) =
            .down L m (Index.step strict (L == 0) ((τ n).w.side L).ix.heap (((τ n).w.side L).ix.pc i)).2 := by
          cases e : ((τ n).w.side L).ix.pc i <;> first | rfl | exact absurd ⟨_, _, e⟩ hl
        rw [eg] at g
        obtain ⟨g1, g2, g3⟩ := g
        have G := get_step (strict := strict) (h := ((τ n).w.side L).ix.heap) (main := L == 0) ((E.locks C n (by omega)).get i d ho L) i3.1 i3.2 i4 (fun o e => K.fine L i o e)
        rw [g1]
        refine ⟨wh i1, g3, ?_, by rw [g2]; exact G.2.2⟩
        unfold Inside
        rw [g2]
        exact ⟨G.1, G.2.1⟩
    | read L m =>
      rw [ep] at ih
      obtain ⟨i1, i2⟩ := ih
      have O := K.ok.ok L (K.ok.basic.made L i1.up)
      have g := go (.read L m (((τ n).w.f.layer L).rd i)) i1.up ⟨ep, rfl⟩
      by_cases hd : ∃ k r w, ((τ n).w.f.layer L).rd i = .done k r w
      · obtain ⟨k, r, w, hd⟩ := hd
        have en : next (τ n) i y qs = (none, answer m r) := by unfold next; rw [ep]; dsimp only; rw [hd]
        rw [eph, en]
        cases r with
        | value v => trivial
        | absent => trivial
        | misread => trivial
        | descend q =>
          show Where (τ (n + 1)).w d q (m + 1)
          have T := h.trail E C n (by omega) (by omega)
          rw [ep] at T
          obtain ⟨c, e', t1, t2⟩ := T
          rcases t2 with t2 | ⟨b', k', r', w', b1, b2, b3, b4, b5⟩
          · exact absurd hd (t2 n t1.le (Nat.lt_succ_self n) _ _ _)
          · rw [hd] at b5
            cases b5
            have Q := t1.part b1 b3 b4
            have F := E.whole.forest C
            have W := all c (by have := t1.lt; have := t1.le; omega) t1.gt (by have := t1.lt; have := t1.le; omega)
            rw [t1.came] at W
            have e0 : ∀ k, k ≤ b + 1 → Whole.upTo (b + 1) (tree τ) k = (τ k).w.f := fun k hk => Whole.upTo_eq hk
            have l1 := t1.lt
            have l2 := t1.le
            have hu : (Whole.upTo (b + 1) (tree τ) c).up L = true := by rw [e0 c (by omega)]; exact W.up
            have hd' : Forest.Under ((Whole.upTo (b + 1) (tree τ) c).pre L) d := by rw [e0 c (by omega)]; exact W.under
            have hp : ((Whole.upTo (b + 1) (tree τ) c).pre L).length = 8 * m := by rw [e0 c (by omega)]; exact W.len
            have hm := (F.basic c).made L hu
            have hce : c ≤ e' + 1 := by omega
            have ec := F.pre_mono hce hm
            have hf : Forest.Few (Whole.upTo (b + 1) (tree τ)) (e' + 1) b' :=
              Forest.Few.sub (Whole.few_upTo hr (by have := h.lt; omega) (by omega)) (by have := t1.gt; omega) (by omega) (by omega)
            rcases F.seen (F.up_mono hce hu) (by rw [ec]; exact hd') (by rw [ec]; exact hp) (Q.forest E.whole C (by omega))
              hf
              (fun e j h1 h2 => by rw [e0 j (by omega)]; exact hz e j (by have := t1.gt; omega) (by omega)) with e | ⟨_, j, j1, j2, h3⟩
            · cases e
            · have hj : c ≤ j := by omega
              obtain ⟨g1, g2, g3⟩ := F.goes_down (F.up_mono hj hu) (by rw [F.pre_mono hj hm]; exact hd') (by rw [F.pre_mono hj hm]; exact hp) h3 (c := n + 1) (by omega)
              rw [e0 (n + 1) h2] at g1 g2 g3
              exact ⟨g1, g2, g3⟩
      · have eg : pace fixed strict (τ n).w d (.read L m (((τ n).w.f.layer L).rd i)) =
            .read L m (Chain.cstep fixed ((τ n).w.f.layer L).leaf (((τ n).w.f.layer L).rd i)) := by
          cases e : ((τ n).w.f.layer L).rd i <;> first | rfl | exact absurd ⟨_, _, _, e⟩ hd
        rw [eg] at g
        obtain ⟨g1, g2⟩ := g
        rw [g1]
        refine ⟨wh i1, ?_⟩
        rw [g2]
        exact (RdOk.step O.C i2).mono (mono n (by omega) L i1.up)
    | idle => rw [eph]; unfold next; rw [ep]; trivial
    | ret r => rw [eph]; unfold next; rw [ep]; trivial
    | err => rw [eph]; unfold next; rw [ep]; trivial
    | _ => rw [ep] at P; exact absurd P id
end Verif.Ops
