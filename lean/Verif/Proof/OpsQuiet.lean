import Verif.Proof.OpsLocks4
import Verif.Proof.OpsGet
import Verif.Prop.Forest
set_option linter.unusedSimpArgs false
set_option linter.unusedVariables false
/-! While no insert is under way nothing is locked, released or marked. -/
namespace Verif.Ops
open Verif.Internode (upd upd_same upd_ne)
open Verif.Spec (Bytes)
open Verif.Whole (Inside isLocked Frame WOk LAct onLeaves beside raw lact onForest inIndex)
variable {V : Type} {fixed strict : Bool} {τ : Nat → St V} {β : Nat → Option (Act V)} {N : Nat}

/-- The steps of lookups. -/
def reads : LAct V → Bool
  | .call _ _ _ | .walk _ | .enter _ | .read _ => true
  | _ => false

theorem reads_still {a : LAct V} (h : reads a = true) : still a = true := by
  cases a <;> first | rfl | cases h

theorem get_reads {s : St V} {i y : Nat} {qs : List Nat} {d : Bytes} (ho : s.op i = .get d) (P : GetOk s.w i (s.ph i))
    (G : ∀ L, GetPc ((s.w.side L).ix.pc i)) {a : Whole.Act V} (h : (next s i y qs).1 = some a) : ∃ L b, a = .inLayer L b ∧ reads b = true := by
  unfold next at h
  simp only at h
  cases ep : s.ph i with
  | idle => rw [ep] at h; cases h
  | ret r => rw [ep] at h; cases h
  | err => rw [ep] at h; cases h
  | enter L m => rw [ep] at h; cases h; exact ⟨L, _, rfl, rfl⟩
  | down L m =>
    rw [ep] at h
    simp only at h
    rw [ho] at h
    unfold down at h
    have GL := G L
    split at h
    · cases h; exact ⟨L, _, rfl, rfl⟩
    · rename_i g; rw [g] at GL; exact absurd GL id
    · rename_i g; rw [g] at GL; exact absurd GL id
    · cases h
    · split at h
      · cases h; exact ⟨L, _, rfl, rfl⟩
      · cases h
  | read L m =>
    rw [ep] at h
    simp only at h
    split at h
    · cases h
    · cases h; exact ⟨L, _, rfl, rfl⟩
  | _ => rw [ep] at P; exact absurd P id

/-- A thread whose call is over does nothing. -/
theorem over_next {s : St V} {i y : Nat} {qs : List Nat} (h : (s.ph i).over = true) : (next s i y qs).1 = none := by
  unfold next
  cases ep : s.ph i with
  | idle => rfl
  | ret r => rfl
  | _ => simp only [ep, Ph.over] at h; cases h

theorem next_idle {s : St V} {i y : Nat} {qs : List Nat} (h : (s.ph i).over = false) : (next s i y qs).2 ≠ .idle := by
  intro g
  unfold next at g
  simp only at g
  cases ep : s.ph i with
  | idle => rw [ep] at h; cases h
  | ret r => rw [ep] at h; cases h
  | down L m =>
    rw [ep] at g
    simp only [down, decide, splitOr, checked] at g
    (repeat' split at g) <;> cases g
  | read L m =>
    rw [ep] at g
    simp only at g
    split at g
    · rename_i r' _ _
      cases r' <;> cases g
    · cases g
  | store => rw [ep] at g; simp only at g; (repeat' split at g) <;> cases g
  | conv => rw [ep] at g; simp only at g; (repeat' split at g) <;> cases g
  | freeze => rw [ep] at g; simp only at g; (repeat' split at g) <;> cases g
  | part => rw [ep] at g; simp only at g; (repeat' split at g) <;> cases g
  | prop => rw [ep] at g; simp only [spread] at g; (repeat' split at g) <;> cases g
  | drop L x a => rw [ep] at g; cases a <;> cases g
  | _ => rw [ep] at g; cases g

theorem quiet_moves (E : Exec fixed strict τ β) (C : Clean strict τ β N) {n : Nat} (hn : n ≤ N) (h : ∀ i, ¬ Inserting (τ n) i) {a : Whole.Act V}
    (ha : moves τ β n = some a) : ∃ L b, a = .inLayer L b ∧ reads b = true := by
  cases e : β n with
  | none => rw [(none_eq E e).2] at ha; cases ha
  | some x =>
    cases x with
    | call i o => rw [(call_eq E e).2.2.1] at ha; cases ha
    | run i y qs =>
      rw [(run_eq E e).2.2.2.2] at ha
      cases eo : (τ n).op i with
      | get d =>
        have P := E.phases C n hn i
        rw [eo] at P
        exact get_reads eo P ((E.locks C n hn).get i d eo) ha
      | insert d v =>
        have ho : ((τ n).ph i).over = true := by
          cases g : ((τ n).ph i).over with
          | true => rfl
          | false => exact absurd ⟨g, d, v, eo⟩ (h i)
        rw [over_next ho] at ha; cases ha

theorem quiet_hold (E : Exec fixed strict τ β) (C : Clean strict τ β N) {n : Nat} (hn : n ≤ N) (h : ∀ i, ¬ Inserting (τ n) i) (L : Nat) :
    ((τ (n + 1)).w.f.layer L).hold = ((τ n).w.f.layer L).hold := by
  have hs := E.whole.steps n
  have hs : (τ (n + 1)).w = match moves τ β n with | none => (τ n).w | some a => Whole.act fixed strict (τ n).w a := hs
  cases e : moves τ β n with
  | none => rw [e] at hs; rw [hs]
  | some a =>
    rw [e] at hs
    obtain ⟨K, b, rfl, hb⟩ := quiet_moves E C hn h e
    rw [hs]
    cases hu : (τ n).w.f.up K with
    | false => simp only [Whole.act, hu]; rfl
    | true =>
      rw [post_layer hu]
      by_cases g : L = K
      · subst g; rw [if_pos rfl]; exact (lact_still _ _ _ _ (reads_still hb)).1
      · rw [if_neg g]

/-- No lock is released. -/
theorem quiet_few (E : Exec fixed strict τ β) {a b : Nat} (C : Clean strict τ β b) (h : ∀ n, a ≤ n → n < b → ∀ i, ¬ Inserting (τ n) i) :
    Forest.Few (Whole.leaves (tree τ)) a b := by
  intro L x
  have : ∀ k, a + k ≤ b → Chain.releases (fun n => (Whole.leaves (tree τ) n).layer L) x (a + k) =
      Chain.releases (fun n => (Whole.leaves (tree τ) n).layer L) x a := by
    intro k
    induction k with
    | zero => intro _; rfl
    | succ k ih =>
      intro hk
      rw [← Nat.add_assoc]
      have e := quiet_hold E C (n := a + k) (by omega) (h (a + k) (by omega) (by omega)) L
      show Chain.releases _ x (a + k) + _ = _
      rw [ih (by omega), if_neg]
      · rfl
      · rintro ⟨g1, g2⟩
        have g2 : ((τ (a + k + 1)).w.f.layer L).hold x = .free := g2
        rw [e] at g2
        exact g1 g2
  by_cases hab : a ≤ b
  · have := this (b - a) (by omega)
    rw [show a + (b - a) = b by omega] at this
    rw [this]; simp
  · have := Forest.releases_mono (fun n => (Whole.leaves (tree τ) n).layer L) x (show b ≤ a by omega)
    have h2 : Chain.releases (fun n => (Whole.leaves (tree τ) n).layer L) x b - Chain.releases (fun n => (Whole.leaves (tree τ) n).layer L) x a = 0 := by omega
    rw [h2]; decide

/-- Nobody has a lock. -/
theorem quiet_free (E : Exec fixed strict τ β) (C : Clean strict τ β N) {n : Nat} (hn : n ≤ N) (h : ∀ i, ¬ Inserting (τ n) i) {L x : Nat}
    (hm : (τ n).w.f.made L = true) : ((τ n).w.f.layer L).hold x = .free := by
  have H := E.locks C n hn
  refine Classical.byContradiction fun g => ?_
  obtain ⟨i, hi⟩ := H.keep L x hm g
  exact h i (keeps_runs (E.phases C n hn i) (fun d e => H.get i d e) hi)

theorem quiet_transit (E : Exec fixed strict τ β) (C : Clean strict τ β N) {n : Nat} (hn : n ≤ N) (h : ∀ i, ¬ Inserting (τ n) i) (d : Bytes) :
    ¬ Forest.InTransit (τ n).w.f d := by
  rintro ⟨L, hu, _, _, x, lv, t, q, st, hc, _⟩
  rw [quiet_free E C hn h ((E.know C hn).ok.basic.made L hu)] at hc
  cases hc

/-- Readers that have seen no mark. -/
def Clear : Chain.CPc V → Prop
  | .done _ _ saw => saw = false
  | _ => True

theorem Clear.step {f : Bool} {leaf : Nat → Chain.LeafSt V} {c : Chain.CPc V} (h : Clear c) (hm : ∀ x k, c = .next x k → (leaf x).mark = false) :
    Clear (Chain.cstep f leaf c) := by
  cases c with
  | next x k =>
    simp only [Chain.cstep, hm x k rfl]
    (repeat' split) <;> trivial
  | done k r w => exact h
  | leaf x c =>
    cases c <;> simp only [Chain.cstep] <;> (repeat' split) <;> trivial
  | _ => simp only [Chain.cstep, Chain.advRet] <;> (repeat' split) <;> trivial

theorem reads_rd {l : Whole.Lay V} {main : Bool} {b : LAct V} (hb : reads b = true) {i : Nat} (h1 : b ≠ .enter i) (h2 : b ≠ .read i) :
    (lact fixed strict main l b).c.rd i = l.c.rd i := by
  unfold lact
  simp only
  cases e : onLeaves l b with
  | none => rfl
  | some c =>
    cases b with
    | call => cases e
    | walk => cases e
    | enter j =>
      have hj : i ≠ j := fun g => h1 (by rw [g])
      simp only [onLeaves] at e; split at e <;> cases e <;> exact upd_ne _ _ _ hj
    | read j =>
      have hj : i ≠ j := fun g => h2 (by rw [g])
      cases e; exact upd_ne _ _ _ hj
    | _ => cases hb

/-- A step in which thread `i` does nothing in the leaves. -/
theorem quiet_rd (E : Exec fixed strict τ β) (C : Clean strict τ β N) {n : Nat} (hn : n ≤ N) (h : ∀ i, ¬ Inserting (τ n) i) {i : Nat}
    (h1 : ∀ L, moves τ β n ≠ some (.inLayer L (.enter i))) (h2 : ∀ L, moves τ β n ≠ some (.inLayer L (.read i))) (L : Nat) :
    ((τ (n + 1)).w.f.layer L).rd i = ((τ n).w.f.layer L).rd i := by
  have hs : (τ (n + 1)).w = match moves τ β n with | none => (τ n).w | some a => Whole.act fixed strict (τ n).w a := E.whole.steps n
  cases e : moves τ β n with
  | none => rw [e] at hs; rw [hs]
  | some a =>
    rw [e] at hs
    obtain ⟨K, b, rfl, hb⟩ := quiet_moves E C hn h e
    rw [hs]
    cases hu : (τ n).w.f.up K with
    | false => simp only [Whole.act, hu]; rfl
    | true =>
      rw [post_layer hu]
      by_cases g : L = K
      · subst g
        rw [if_pos rfl]
        exact reads_rd hb (fun g => h1 L (by rw [e, g])) (fun g => h2 L (by rw [e, g]))
      · rw [if_neg g]

/-- A lookup that begins and ends while no insert is under way meets no mark. -/
theorem quiet_unmarked (E : Exec fixed strict τ β) {i a b : Nat} {d : Bytes} (ho : Open τ β i (.get d) a b) (C : Clean strict τ β b)
    (h : ∀ n, a ≤ n → n < b → ∀ i, ¬ Inserting (τ n) i) : Unmarked τ i a b := by
  have key : ∀ k, a + 1 + k ≤ b → ∀ L m, (τ (a + 1 + k)).ph i = .read L m → Clear (((τ (a + 1 + k)).w.f.layer L).rd i) := by
    intro k
    induction k with
    | zero =>
      intro _ L m hp
      exfalso
      rw [show a + 1 + 0 = a + 1 from rfl, ho.starts E] at hp
      cases hp
    | succ k ih =>
      intro hk L m hp
      have ih := ih (by omega)
      rw [show a + 1 + (k + 1) = a + 1 + k + 1 from rfl] at hp ⊢
      generalize en : a + 1 + k = n at *
      have hn : n ≤ b := by omega
      have hop : (τ n).op i = .get d := ho.op E n (by omega) (by omega)
      have hq := h n (by omega) (by omega)
      by_cases hr : Runs β i n
      · obtain ⟨y, qs, er⟩ := hr
        obtain ⟨ew, _, e3, _, em⟩ := run_eq E er
        have P : GetOk (τ n).w i ((τ n).ph i) := by have := E.phases C n hn i; rw [hop] at this; exact this
        have G := (E.locks C n hn).get i d hop
        have W := (E.know C hn).ok
        rw [e3, upd_same] at hp
        unfold next at ew hp
        simp only at ew hp
        cases ep : (τ n).ph i with
        | down K m' =>
          rw [ep] at ew hp P
          simp only at ew hp
          rw [hop] at ew hp
          unfold down at ew hp
          have GK := G K
          split at ew
          · rename_i o z g
            rw [g] at hp
            cases hp
            have hu : (τ n).w.f.up L = true := by
              cases hu : (τ n).w.f.up L with
              | true => rfl
              | false => rw [W.unused L hu] at g; cases g
            have en : after fixed strict (τ n).w (some (.inLayer L (.enter i))) = Whole.act fixed strict (τ n).w (.inLayer L (.enter i)) := rfl
            rw [ew, en, post_layer_same hu]
            have hqu := P.2 (W.basic.made L hu)
            unfold lact
            simp only [onLeaves]
            rw [show ((τ n).w.lay L).s.ix.pc i = _ from g]
            cases er : ((τ n).w.f.layer L).rd i with
            | idle =>
              rw [show ((τ n).w.lay L).c.rd i = _ from er]
              simp only [raw, upd_same]; trivial
            | done k' r' w' =>
              rw [show ((τ n).w.lay L).c.rd i = _ from er]
              simp only [raw, upd_same]; trivial
            | _ => rw [er] at hqu; exact absurd hqu id
          · rename_i g; rw [g] at GK; exact absurd GK id
          · rename_i g; rw [g] at GK; exact absurd GK id
          · rename_i g; rw [g] at hp; cases hp
          · exfalso
            rename_i g1 g2 g3 g4
            split at hp
            · exact g1 _ _ ‹_›
            · cases hp
            · exact g3 _ _ _ ‹_›
            · cases hp
            · cases hp
        | read K m' =>
          rw [ep] at ew hp
          simp only at ew hp
          split at ew
          · rename_i k' r' w' g
            rw [g] at hp
            cases r' <;> cases hp
          · rename_i g
            split at hp
            · rename_i g'; exact absurd g' (g _ _ _)
            · cases hp
              have ihL := ih L m ep
              have en : after fixed strict (τ n).w (some (.inLayer L (.read i))) = Whole.act fixed strict (τ n).w (.inLayer L (.read i)) := rfl
              rw [ew, en]
              cases hu : (τ n).w.f.up L with
              | false => simp only [Whole.act, hu]; exact ihL
              | true =>
                rw [post_layer_same hu]
                have hm := W.basic.made L hu
                unfold lact
                simp only [onLeaves, raw, Chain.act, upd_same]
                refine ihL.step fun x k' g' => ?_
                have F := E.whole.forest C
                have e : Whole.upTo b (tree τ) n = (τ n).w.f := Whole.upTo_eq hn
                have hm' : (Whole.upTo b (tree τ) n).made L = true := by rw [e]; exact hm
                have h1 := (F.proj_exec hm').placed i n
                rw [Forest.proj_eq hm', e] at h1
                rw [show ((τ n).w.f.layer L).rd i = _ from g'] at h1
                have hx : ((τ n).w.f.layer L).live x = true := h1.1
                exact (E.leaf_free C hn hm ((W.ok L hm).C.used x hx) (quiet_free E C hn hq hm)).2
        | enter K m' => rw [ep] at hp; cases hp
        | idle => rw [ep] at hp; cases hp
        | ret r => rw [ep] at hp; cases hp
        | err => rw [ep] at hp; cases hp
        | _ => rw [ep] at P; exact absurd P id
      · have := ho.other E (n := n) (by omega) (by omega) hr
        rw [this] at hp
        have hw : ∀ a', moves τ β n = some a' → a'.who ≠ some i := by
          intro a' g g'
          cases er : β n with
          | none => rw [(none_eq E er).2] at g; cases g
          | some x =>
            cases x with
            | call j o => rw [(call_eq E er).2.2.1] at g; cases g
            | run j y qs =>
              rw [(run_eq E er).2.2.2.2] at g
              rcases next_who g with q | q
              · rw [g'] at q; cases q; exact hr ⟨y, qs, er⟩
              · rw [g'] at q; cases q
        rw [quiet_rd E C hn hq (fun K g => hw _ g rfl) (fun K g => hw _ g rfl)]
        exact ih L m hp
  intro n L m k r h1 h2 h3 h4
  have := key (n - (a + 1)) (by omega) L m (by rw [show a + 1 + (n - (a + 1)) = n by omega]; exact h3)
  rw [show a + 1 + (n - (a + 1)) = n by omega, h4] at this
  cases this

/-- A call that was under way and is over has returned. -/
theorem Open.returns (E : Exec fixed strict τ β) {i a n : Nat} {o : Op V} (h : Open τ β i o a n) {m : Nat} (hm : n ≤ m) (hv : ((τ m).ph i).over = true) :
    ∃ b r, n ≤ b ∧ b < m ∧ Call τ β i o a b r := by
  obtain ⟨k, rfl⟩ := Nat.exists_eq_add_of_le hm
  clear hm
  induction k generalizing n with
  | zero => rw [show n + 0 = n from rfl, h.busy n h.lt (Nat.le_refl n)] at hv; cases hv
  | succ k ih =>
    cases g : ((τ (n + 1)).ph i).over with
    | false =>
      obtain ⟨b, r, h1, h2, h3⟩ := ih (n := n + 1) ⟨h.call, h.free, Nat.lt_succ_of_lt h.lt, fun j j1 j2 => by
        by_cases e : j = n + 1
        · rw [e]; exact g
        · exact h.busy j j1 (by omega)⟩ (by rw [show n + 1 + k = n + (k + 1) by omega]; exact hv)
      exact ⟨b, r, by omega, by omega, h3⟩
    | true =>
      have hb := h.busy n h.lt (Nat.le_refl n)
      cases e : (τ (n + 1)).ph i with
      | ret r => exact ⟨n, r, Nat.le_refl n, by omega, h, e⟩
      | idle =>
        exfalso
        by_cases hr : Runs β i n
        · obtain ⟨y, qs, er⟩ := hr
          rw [(run_eq E er).2.2.1, upd_same] at e
          exact next_idle hb e
        · rw [h.other E h.lt (Nat.le_refl n) hr] at e
          rw [e] at hb; cases hb
      | _ => rw [e] at g; cases g

end Verif.Ops
