import Verif.Proof.OpsEnd
import Verif.Prop.OpsFail
import Verif.Prop.OpsLocks
set_option linter.unusedSimpArgs false
set_option linter.unusedVariables false
/-!
# C68: lookups return

A `get` that overlaps no insert returns after a number of its own steps that depends on the tree and the key only: no other lookup can
delay it.
-/
namespace Verif.Ops
open Verif.Internode (upd upd_same upd_ne)
open Verif.Spec (Bytes)
open Verif.Index (Al)
variable {V : Type} {fixed strict : Bool} {τ : Nat → St V} {β : Nat → Option (Act V)} {N : Nat}

/-- A tree without an insert under way is at rest. -/
theorem at_rest (E : Exec fixed strict τ β) (C : Clean strict τ β N) {n : Nat} (hn : n ≤ N) (h : ∀ i, ¬ Inserting (τ n) i) (L : Nat)
    (hu : (τ n).w.f.up L = true) : Rest (τ n).w L := by
  have H := E.locks C n hn
  have P := E.phases C n hn
  have K := E.know C hn
  have hm := K.ok.basic.made L hu
  obtain ⟨h1, h2⟩ := C64_no_lock_left E C hn h L
  have nl : ∀ q, Al ((τ n).w.side L).ix.heap q → (((τ n).w.side L).ix.heap.node q).locked = false := by
    intro q hq
    cases e : (((τ n).w.side L).ix.heap.node q).locked with
    | false => rfl
    | true => exact absurd ⟨hm, hq.1, hq.2, e⟩ (h2 q)
  have O := K.ok.ok L hm
  refine ⟨hu, nl, fun q hq => ?_, fun x => ?_, fun x hx => ?_⟩
  · refine O.F.I.H.same q hq ?_
    rintro ⟨i, hi⟩
    have hi : Index.busy (((τ n).w.side L).ix.pc i) q := hi
    cases e : ((τ n).w.side L).ix.pc i <;> rw [e] at hi <;> first | (cases hi; done) | skip
    rename_i c p ms
    have hi : q = p := hi
    subst hi
    have := (O.F.I.hold i q (by
      show q ∈ Index.holds (((τ n).w.side L).ix.pc i)
      rw [e]; simp [Index.holds])).2
    have := this
    rw [show ((τ n).w.lay L).s.ix.heap = ((τ n).w.side L).ix.heap from rfl, nl q hq] at this
    cases this
  · refine Classical.byContradiction fun g => ?_
    obtain ⟨i, hi⟩ := H.keep L x hm g
    exact h i (keeps_runs (P i) (fun d e => H.get i d e) hi)
  · have hu' := O.C.used x hx
    have := h1 x ⟨hm, hu'⟩
    exact ⟨this.2.1, this.2.2⟩

/-- While no insert is under way nothing goes wrong. -/
theorem quiet_clean (E : Exec fixed strict τ β) {a : Nat} (C : Clean strict τ β a) : ∀ k, (∀ n, a ≤ n → n < a + k → ∀ i, ¬ Inserting (τ n) i) →
    Clean strict τ β (a + k)
  | 0, _ => C
  | k + 1, hq => by
    have Ck := quiet_clean E C k fun n h1 h2 => hq n h1 (by omega)
    have hq' := hq (a + k) (by omega) (by omega)
    refine ⟨fun n hn L i ha o r p w x hp hc => ?_, fun n hn L i o e hf => ?_⟩
    · by_cases hlt : n < a + k
      · exact Ck.calm n hlt L i ha o r p w x hp hc
      · have hn : n = a + k := by omega
        subst hn
        have K := (E.know Ck (Nat.le_refl _)).ok
        have hu : (τ (a + k)).w.f.up L = true := by
          cases hu : (τ (a + k)).w.f.up L with
          | true => rfl
          | false =>
            have hp : ((τ (a + k)).w.side L).ix.pc i = .chk o r p w x := hp
            rw [K.unused L hu] at hp; cases hp
        have ok := (K.ok L (K.basic.made L hu)).F.I.ok i
        rw [show ((τ (a + k)).w.lay L).s.ix.pc i = .chk o r p w x from hp] at ok
        exact (at_rest E Ck (Nat.le_refl _) hq' L hu).node p ok.2.1
    · by_cases hlt : n ≤ a + k
      · exact Ck.done n hlt L i o e hf
      · have hn : n = a + k + 1 := by omega
        subst hn
        obtain ⟨d, v, c, h1, _⟩ := E.failure Ck hf
        exact hq' i ⟨h1.busy _ h1.lt (Nat.le_refl _), d, v, h1.op E _ h1.lt (Nat.le_succ _)⟩

theorem quiet_clean' (E : Exec fixed strict τ β) {n : Nat} (C : Clean strict τ β n) (hq : ∀ i, ¬ Inserting (τ n) i) : Clean strict τ β (n + 1) :=
  quiet_clean E C 1 fun m h1 h2 => by
    have : m = n := by omega
    rw [this]; exact hq

theorem Same.refl (w : Whole.St V) : Same w w := ⟨fun _ h => h, fun _ _ => rfl, fun _ _ => rfl, fun _ _ => rfl⟩

theorem Same.trans {w1 w2 w3 : Whole.St V} (h : Same w1 w2) (g : Same w2 w3) : Same w1 w3 :=
  ⟨fun L k => g.up L (h.up L k), fun L k => (g.leaf L (h.up L k)).trans (h.leaf L k), fun L k => (g.heap L (h.up L k)).trans (h.heap L k),
    fun L k => (g.at_ L (h.up L k)).trans (h.at_ L k)⟩

theorem quiet_same_step (E : Exec fixed strict τ β) (C : Clean strict τ β N) (hq : ∀ i, ¬ Inserting (τ N) i) : Same (τ N).w (τ (N + 1)).w := by
  cases e : moves τ β N with
  | none =>
    have : (τ (N + 1)).w = (τ N).w := by
      have := E.whole.steps N
      rw [e] at this; exact this
    rw [this]; exact Same.refl _
  | some a =>
    have ew : (τ (N + 1)).w = Whole.act fixed strict (τ N).w a := by
      have := E.whole.steps N
      rw [e] at this; exact this
    obtain ⟨L, b, rfl, hb⟩ := quiet_moves E C (Nat.le_refl N) hq e
    cases hu : (τ N).w.f.up L with
    | false =>
      have : (τ (N + 1)).w = (τ N).w := by rw [ew]; simp only [Whole.act, hu]; rfl
      rw [this]; exact Same.refl _
    | true =>
      have ht : SameTree (τ N) (τ (N + 1)) := by
        have hr : ∃ i, Runs β i N ∧ ((τ N).ph i).over = false := by
          cases eb : β N with
          | none => rw [(none_eq E eb).2] at e; cases e
          | some x =>
            cases x with
            | call i o => rw [(call_eq E eb).2.2.1] at e; cases e
            | run i y qs =>
              refine ⟨i, ⟨y, qs, eb⟩, ?_⟩
              rw [(run_eq E eb).2.2.2.2] at e
              cases g : ((τ N).ph i).over with
              | false => rfl
              | true => rw [over_next g] at e; cases e
        obtain ⟨i, hr, ho⟩ := hr
        cases eo : (τ N).op i with
        | get d => exact (C64_get_writes_nothing E C (Nat.le_refl N) eo hr).1
        | insert d v => exact absurd ⟨ho, d, v, eo⟩ (hq i)
      refine ⟨fun K hK => by rw [ew]; exact post_up hu _ hK, fun K _ => ht.leaf K, fun K _ => ht.node K, fun K _ => ?_⟩
      rw [ew, post_side hu]
      by_cases g : K = L
      · subst g
        rw [if_pos rfl]
        cases b with
        | call i k put => simp only [Whole.beside]; split <;> rfl
        | walk i => simp only [Whole.beside]; split <;> rfl
        | enter i => simp only [Whole.beside]; split <;> rfl
        | read i => rfl
        | _ => cases hb
      · rw [if_neg g]

theorem quiet_same (E : Exec fixed strict τ β) {a : Nat} (C : Clean strict τ β a) : ∀ k, (∀ n, a ≤ n → n < a + k → ∀ i, ¬ Inserting (τ n) i) →
    Same (τ a).w (τ (a + k)).w
  | 0, _ => Same.refl _
  | k + 1, hq => (quiet_same E C k fun n h1 h2 => hq n h1 (by omega)).trans
      (quiet_same_step E (quiet_clean E C k fun n h1 h2 => hq n h1 (by omega)) (hq (a + k) (by omega) (by omega)))

theorem ownSteps_zero {i a : Nat} : ∀ n, n ≤ a + 1 → ownSteps β i a n = 0
  | 0, _ => rfl
  | n + 1, h => by
    unfold ownSteps
    rw [ownSteps_zero n (by omega), if_neg (by omega)]

theorem At.frame {s s' : St V} {i : Nat} {d : Bytes} {p : Pos V} (K : Know s.w) (hp : p.ok s.w) (F : Whole.Frame s.w s'.w i) (e : s'.ph i = s.ph i)
    (h : At s i d p) : At s' i d p := by
  cases p with
  | enter L m => exact e.trans h
  | down L m q => exact ⟨e.trans h.1, by rw [F.pc L]; exact h.2.1, by rw [F.key L]; exact h.2.2⟩
  | read L m c => exact ⟨e.trans h.1, by rw [F.rd L (K.ok.basic.made L hp)]; exact h.2⟩
  | over => show (s'.ph i).over = true; rw [e]; exact h
  | stuck => trivial

theorem Pos.ok.same {w w' : Whole.St V} (T : Same w w') {p : Pos V} (h : p.ok w) : p.ok w' := by
  cases p with
  | enter L m => exact T.up L h
  | down L m q => exact ⟨T.up L h.1, h.2⟩
  | read L m c => exact T.up L h
  | over => trivial
  | stuck => trivial

/-- The own steps of a lookup bring it nearer to its end, and nothing else takes it away. -/
theorem ends_at (E : Exec fixed strict τ β) {a b i : Nat} {d : Bytes} (C : Clean strict τ β a) (h : Open τ β i (.get d) a b) (hq : NoInsert τ a b) {K : Nat}
    (hK : Ends fixed strict (τ a).w d K (.enter 0 0)) : ∀ k, a + 1 + k ≤ b →
      ∃ c p, ownSteps β i a (a + 1 + k) + c = K ∧ Ends fixed strict (τ a).w d c p ∧ At (τ (a + 1 + k)) i d p
  | 0, hk => by
    refine ⟨K, _, by rw [ownSteps_zero _ (by omega), Nat.zero_add], hK, ?_⟩
    obtain ⟨_, _, _, g⟩ := call_eq E h.call
    rcases g with ⟨g, _⟩ | ⟨_, g1, g2⟩
    · rw [h.free] at g; cases g
    · show (τ (a + 1)).ph i = _
      rw [g2]; exact upd_same _ _ _
  | k + 1, hk => by
    obtain ⟨c, p, h1, h2, h3⟩ := ends_at E C h hq hK k (by omega)
    generalize hn : a + 1 + k = n at h1 h3
    have hn' : a + 1 + (k + 1) = n + 1 := by omega
    rw [hn']
    have hqn : ∀ m, a ≤ m → m < a + (k + 1) → ∀ i, ¬ Inserting (τ m) i := fun m g1 g2 => hq m g1 (by omega)
    have Cn : Clean strict τ β n := by
      have := quiet_clean E C (k + 1) hqn
      rw [show a + (k + 1) = n by omega] at this; exact this
    have T : Same (τ a).w (τ n).w := by
      have := quiet_same E C (k + 1) hqn
      rw [show a + (k + 1) = n by omega] at this; exact this
    have Kn := E.know Cn (Nat.le_refl n)
    have ho := h.op E n (by omega) (by omega)
    have P := E.phases Cn n (Nat.le_refl n) i
    rw [ho] at P
    have hb := h.busy n (by omega) (by omega)
    cases h2 with
    | over =>
      have h3 : ((τ n).ph i).over = true := h3
      rw [hb] at h3; cases h3
    | step hok h2 =>
      rename_i c
      have stay : ownSteps β i a (n + 1) = ownSteps β i a n → Whole.Frame (τ n).w (τ (n + 1)).w i → (τ (n + 1)).ph i = (τ n).ph i →
          ∃ c p, ownSteps β i a (n + 1) + c = K ∧ Ends fixed strict (τ a).w d c p ∧ At (τ (n + 1)) i d p := fun g1 g2 g3 =>
        ⟨c + 1, p, by rw [g1]; exact h1, .step hok h2, h3.frame Kn (Pos.ok.same T hok) g2 g3⟩
      have eo : ∀ f, (¬ Runs β i n → f) → (Runs β i n → f) → f := fun f g1 g2 => (Classical.em (Runs β i n)).elim g2 g1
      refine eo _ (fun hr => ?_) (fun hr => ?_)
      · have g1 : ownSteps β i a (n + 1) = ownSteps β i a n := by
          show _ + _ = _
          rw [if_neg (fun g => hr g.2)]; rfl
        cases e : β n with
        | none =>
          have := (none_eq E e).1
          exact stay g1 (by rw [this]; exact Whole.Frame.refl _ _) (by rw [this])
        | some x =>
          cases x with
          | call j o =>
            obtain ⟨k1, _, _, g⟩ := call_eq E e
            refine stay g1 (by rw [k1]; exact Whole.Frame.refl _ _) ?_
            rcases g with ⟨_, g⟩ | ⟨g, _, g2⟩
            · rw [g]
            · have : i ≠ j := by rintro rfl; rw [hb] at g; cases g
              rw [g2]; exact upd_ne _ _ _ this
          | run j y qs =>
            have hj : i ≠ j := by rintro rfl; exact hr ⟨y, qs, e⟩
            obtain ⟨k1, k2, k3, _, k5⟩ := run_eq E e
            refine stay g1 ?_ (by rw [k3]; exact upd_ne _ _ _ hj)
            cases em : moves τ β n with
            | none =>
              rw [k5] at em
              rw [k1, em]; exact Whole.Frame.refl _ _
            | some x =>
              refine E.frame (N := n + 1) (quiet_clean' E Cn (hq n (by omega) (by omega))) (Nat.lt_succ_self n) em ?_
              rw [k5] at em
              rcases next_who em with g | g
              · rw [g]; exact fun g => hj (Option.some.inj g).symm
              · rw [g]; nofun
      · obtain ⟨y, qs, e⟩ := hr
        refine ⟨c, _, ?_, h2, ?_⟩
        · show _ + _ + _ = _
          rw [if_pos ⟨by omega, ⟨y, qs, e⟩⟩]; omega
        · have := E.steps n
          rw [e] at this
          simp only at this
          rw [this]
          exact at_step T Kn ho P hok h3

theorem Where.start (E : Exec fixed strict τ β) (C : Clean strict τ β N) {n : Nat} (hn : n ≤ N) (d : Bytes) : Where (τ n).w d 0 0 := by
  obtain ⟨g1, g2, g3⟩ := (E.whole.forest C).root_under n d
  rw [Whole.upTo_eq hn] at g1 g2 g3
  exact ⟨g1, g2, g3⟩

/-- **C68.** For every tree and key there is a number of steps after which a `get` of the key that overlaps no insert has returned, whatever
other threads do, and how often. -/
theorem C68_get_bound (fixed strict : Bool) (s : St V) (d : Bytes) : ∃ K, ∀ (τ : Nat → St V) (β : Nat → Option (Act V)) (i a b : Nat),
    Exec fixed strict τ β → Clean strict τ β a → τ a = s → Open τ β i (.get d) a b → NoInsert τ a b → ownSteps β i a b < K := by
  by_cases hx : ∃ (τ : Nat → St V) (β : Nat → Option (Act V)) (a : Nat), Exec fixed strict τ β ∧ Clean strict τ β a ∧ τ a = s ∧ ∀ i, ¬ Inserting (τ a) i
  · obtain ⟨τ0, β0, a0, E0, C0, rfl, h0⟩ := hx
    obtain ⟨K, hK⟩ := end_enter (fixed := fixed) (strict := strict) (d := d) (E0.know C0 (Nat.le_refl _)) (at_rest E0 C0 (Nat.le_refl _) h0) _ 0 0
      (Nat.le_refl _) (Where.start E0 C0 (Nat.le_refl _) d)
    refine ⟨K + 1, fun τ β i a b E C hs h hq => ?_⟩
    rw [← hs] at hK
    have hlt := h.lt
    obtain ⟨c, p, h1, _⟩ := ends_at E C h hq hK (b - (a + 1)) (by omega)
    rw [show a + 1 + (b - (a + 1)) = b by omega] at h1
    omega
  · refine ⟨0, fun τ β i a b E C hs h hq => absurd ⟨τ, β, a, E, C, hs, hq a (Nat.le_refl a) (Nat.le_of_lt h.lt)⟩ hx⟩

/-- **C68.** A `get` after whose call no insert is under way returns, if its thread goes on. -/
theorem C68_get_returns (E : Exec fixed strict τ β) {i a : Nat} {d : Bytes} (C : Clean strict τ β a) (hc : β a = some (.call i (.get d)))
    (hf : ((τ a).ph i).over = true) (hq : ∀ n, a ≤ n → ∀ i, ¬ Inserting (τ n) i) (hr : ∀ n, ∃ m, n ≤ m ∧ Runs β i m) :
    ∃ b r, Call τ β i (.get d) a b r := by
  obtain ⟨K, hK⟩ := C68_get_bound fixed strict (τ a) d
  have big : ∀ k, ∃ n, a + 1 ≤ n ∧ k ≤ ownSteps β i a n := by
    intro k
    induction k with
    | zero => exact ⟨a + 1, Nat.le_refl _, Nat.zero_le _⟩
    | succ k ih =>
      obtain ⟨n, h1, h2⟩ := ih
      obtain ⟨m, h3, h4⟩ := hr n
      refine ⟨m + 1, by omega, ?_⟩
      have mono : ∀ j, ownSteps β i a n ≤ ownSteps β i a (n + j) := by
        intro j
        induction j with
        | zero => exact Nat.le_refl _
        | succ j ih => exact Nat.le_trans ih (Nat.le_add_right _ _)
      have := mono (m - n)
      rw [show n + (m - n) = m by omega] at this
      show _ ≤ _ + _
      rw [if_pos ⟨by omega, h4⟩]; omega
  obtain ⟨n, h1, h2⟩ := big K
  have ho : Open τ β i (.get d) a (a + 1) := by
    refine ⟨hc, hf, Nat.lt_succ_self a, fun m g1 g2 => ?_⟩
    have : m = a + 1 := by omega
    subst this
    obtain ⟨_, _, _, g⟩ := call_eq E hc
    rcases g with ⟨g, _⟩ | ⟨_, g1, g2⟩
    · rw [hf] at g; cases g
    · rw [g2, upd_same]; rfl
  have : ∃ e, a + 1 ≤ e ∧ ((τ e).ph i).over = true := by
    refine Classical.byContradiction fun g => ?_
    have := hK τ β i a n E C rfl ⟨hc, hf, by omega, fun m g1 g2 => ?_⟩ (fun m g1 g2 => hq m g1)
    · omega
    · cases e : ((τ m).ph i).over with
      | false => rfl
      | true => exact absurd ⟨m, g1, e⟩ g
  obtain ⟨e, h3, h4⟩ := this
  obtain ⟨b, r, _, _, h5⟩ := ho.returns E h3 h4
  exact ⟨b, r, h5⟩

/-! ## On the tree as the code is -/

/-- Lookups are regular. -/
theorem quiet_regular_step (E : Exec fixed strict τ β) (C : Clean strict τ β N) (hq : ∀ i, ¬ Inserting (τ N) i) {i : Nat} :
    parting (τ N) i = false ∧ lost (τ N) i = false := by
  cases ho : ((τ N).ph i).over with
  | true => unfold parting lost; cases e : (τ N).ph i <;> rw [e] at ho <;> first | exact ⟨rfl, rfl⟩ | cases ho
  | false =>
    cases eo : (τ N).op i with
    | insert d v => exact absurd ⟨ho, d, v, eo⟩ (hq i)
    | get d =>
      have P := E.phases C N (Nat.le_refl N) i
      have G := (E.locks C N (Nat.le_refl N)).get i d eo
      rw [eo] at P
      unfold parting lost
      cases e : (τ N).ph i with
      | freeze L m x sp => rw [e] at P; exact absurd P id
      | down L m =>
        refine ⟨rfl, ?_⟩
        have G := G L
        dsimp only
        split
        · rename_i g _; rw [g] at G; exact absurd G id
        · rfl
      | _ => exact ⟨rfl, rfl⟩

theorem quiet_regular (E : ExecAll fixed strict τ β) {a : Nat} (C : Clean strict τ β a) (R : Regular τ β a) :
    ∀ k, (∀ n, a ≤ n → n < a + k → ∀ i, ¬ Inserting (τ n) i) → Regular τ β (a + k) ∧ Clean strict τ β (a + k)
  | 0, _ => ⟨R, C⟩
  | k + 1, hq => by
    obtain ⟨Rk, Ck⟩ := quiet_regular E C R k fun n h1 h2 => hq n h1 (by omega)
    have R' : Regular τ β (a + (k + 1)) := by
      intro n hn i hr
      by_cases g : n < a + k
      · exact Rk n g i hr
      · have : n = a + k := by omega
        subst this
        obtain ⟨E', A⟩ := E.plain Rk
        have A : Agree τ _ (a + k) := A
        have e := A (a + k) (Nat.le_refl _)
        have := quiet_regular_step E' (A.clean (Nat.le_refl _) Ck) (by rw [e]; exact hq _ (by omega) (by omega)) (i := i)
        rw [e] at this; exact this
    refine ⟨R', ?_⟩
    obtain ⟨E', A⟩ := E.plain R'
    have A : Agree τ _ (a + (k + 1)) := A
    refine A.symm.clean (Nat.le_refl _) (quiet_clean E' (A.clean (by omega) C) (k + 1) fun n h1 h2 i => ?_)
    rw [A n (by omega)]; exact hq n h1 h2 i

/-- **C68** of the code as it is: for every tree and key there is a number of steps after which a `get` of the key that overlaps no insert has
returned. -/
theorem C68_get_bound_all (fixed strict : Bool) (s : St V) (d : Bytes) : ∃ K, ∀ (τ : Nat → St V) (β : Nat → Option (Act V)) (i a b : Nat),
    ExecAll fixed strict τ β → Clean strict τ β a → Regular τ β a → τ a = s → Open τ β i (.get d) a b → NoInsert τ a b → ownSteps β i a b < K := by
  obtain ⟨K, hK⟩ := C68_get_bound fixed strict s d
  refine ⟨K, fun τ β i a b E C R hs h hq => ?_⟩
  have hlt := h.lt
  obtain ⟨Rb, _⟩ := quiet_regular E C R (b - a) fun n h1 h2 => hq n h1 (by omega)
  rw [show a + (b - a) = b by omega] at Rb
  obtain ⟨E', A⟩ := E.plain Rb
  have A : Agree τ _ b := A
  exact hK _ β i a b E' (A.clean (by omega) C) ((A a (by omega)).trans hs) (A.open' (Nat.le_refl b) h) (fun n h1 h2 i => by rw [A n h2]; exact hq n h1 h2 i)

/-- **C68** of the code as it is: a `get` after whose call no insert is under way returns, if its thread goes on. -/
theorem C68_get_returns_all (E : ExecAll fixed strict τ β) {i a : Nat} {d : Bytes} (C : Clean strict τ β a) (R : Regular τ β a)
    (hc : β a = some (.call i (.get d))) (hf : ((τ a).ph i).over = true) (hq : ∀ n, a ≤ n → ∀ i, ¬ Inserting (τ n) i)
    (hr : ∀ n, ∃ m, n ≤ m ∧ Runs β i m) : ∃ b r, Call τ β i (.get d) a b r := by
  have Rn : ∀ n, Regular τ β n := fun n => by
    by_cases g : n ≤ a
    · exact fun m hm => R m (by omega)
    · obtain ⟨k, rfl⟩ := Nat.exists_eq_add_of_le (Nat.le_of_not_le g)
      exact (quiet_regular E C R k fun n h1 _ => hq n h1).1
  have e : ∀ n, Ops.plain fixed strict (τ 0) β n = τ n := fun n => (E.plain (Rn n)).2 n (Nat.le_refl n)
  have e : Ops.plain fixed strict (τ 0) β = τ := funext e
  have E' := (E.plain (Rn 0)).1
  rw [e] at E'
  exact C68_get_returns E' C hc hf hq hr

/-! ## Witness -/

/-- Thread 0 fills the leaf and splits it (C62); then thread 1 looks up the key in the new leaf and goes on for ever. -/
def turnedOn (n : Nat) : Option (Act Nat) := if n < 473 then filled[n]? else if n = 473 then some (.call 1 (.get (key8 100))) else some (.run 1 2 [])

/-- If no insert is under way and none is called, none is under way afterwards. -/
theorem no_insert_after (E : Exec fixed strict τ β) {a : Nat} (h : ∀ i, ¬ Inserting (τ a) i) (hc : ∀ n, a ≤ n → ∀ i d v, β n ≠ some (.call i (.insert d v))) :
    ∀ k i, ¬ Inserting (τ (a + k)) i
  | 0 => h
  | k + 1 => by
    have ih := no_insert_after E h hc k
    intro i hi
    rw [show a + (k + 1) = a + k + 1 from rfl] at hi
    cases e : β (a + k) with
    | none =>
      rw [(none_eq E e).1] at hi
      exact ih i hi
    | some x =>
      cases x with
      | call j o =>
        obtain ⟨_, _, _, g⟩ := call_eq E e
        rcases g with ⟨_, g⟩ | ⟨g, g1, g2⟩
        · rw [g] at hi; exact ih i hi
        · obtain ⟨h1, d, v, h2⟩ := hi
          by_cases hij : i = j
          · subst hij
            rw [g1, upd_same] at h2
            rw [h2] at e
            exact hc _ (by omega) _ _ _ e
          · rw [g1, upd_ne _ _ _ hij] at h2
            rw [g2, upd_ne _ _ _ hij] at h1
            exact ih i ⟨h1, d, v, h2⟩
      | run j y qs =>
        obtain ⟨_, k2, k3, _⟩ := run_eq E e
        obtain ⟨h1, d, v, h2⟩ := hi
        rw [k2] at h2
        by_cases hij : i = j
        · subst hij
          cases g : ((τ (a + k)).ph i).over with
          | false => exact ih i ⟨g, d, v, h2⟩
          | true =>
            rw [k3, upd_same] at h1
            unfold next at h1
            cases e' : (τ (a + k)).ph i <;> rw [e'] at g h1 <;> first | (cases g; done) | cases h1
        · rw [k3, upd_ne _ _ _ hij] at h1
          exact ih i ⟨h1, d, v, h2⟩

set_option maxRecDepth 100000 in
/-- The lookup, which goes through an internode, meets the hypotheses of `C68_get_bound`, and of `C68_get_returns` if thread 1 goes on. -/
theorem C68_witness :
    (let τ := trace false false empty turned
     let β := fun n => turned[n]?
     Exec false false τ β ∧ Clean false τ β 473 ∧ Open τ β 1 (.get (key8 100)) 473 503 ∧ NoInsert τ 473 503) ∧
    (let τ := plain false false empty turnedOn
     Exec false false τ turnedOn ∧ Clean false τ turnedOn 473 ∧ turnedOn 473 = some (.call 1 (.get (key8 100))) ∧ ((τ 473).ph 1).over = true ∧
       (∀ n, 473 ≤ n → ∀ i, ¬ Inserting (τ n) i) ∧ ∀ n, ∃ m, n ≤ m ∧ Runs turnedOn 1 m) := by
  obtain ⟨w1, _, _, _, w2, w3⟩ := C65_witness
  refine ⟨⟨w1, Whole.Clean.sub turned_clean (by omega), w2.busy, w3⟩, ?_⟩
  have E : Exec false false (plain false false empty turnedOn) turnedOn := ⟨(trace_exec (fixed := false) (strict := false) filled).start, fun n => rfl⟩
  have A : ∀ n, n ≤ 473 → plain false false empty turnedOn n = trace false false empty filled n := by
    intro n
    induction n with
    | zero => intro _; rfl
    | succ n ih =>
      intro hn
      rw [E.steps n, (trace_exec (fixed := false) (strict := false) filled).steps n, ih (by omega)]
      have : turnedOn n = filled[n]? := if_pos (by omega)
      rw [this]
  have hq := C64_witness.2.2.2.2.2.2.1
  have hc : ∀ n, 473 ≤ n → ∀ i d v, turnedOn n ≠ some (.call i (.insert d v)) := by
    intro n hn i d v h
    unfold turnedOn at h
    rw [if_neg (by omega)] at h
    split at h <;> cases h
  refine ⟨E, ?_, rfl, ?_, fun n hn => ?_, fun n => ⟨n + 474, by omega, 2, [], ?_⟩⟩
  · refine ⟨fun n hn L i h => ?_, fun n hn L i o e => ?_⟩
    · have : moves (plain false false empty turnedOn) turnedOn n = moves (trace false false empty filled) (fun n => filled[n]?) n := by
        unfold moves
        rw [A n (by omega), show turnedOn n = filled[n]? from if_pos (by omega)]
      rw [this] at h
      have := filled_clean.calm n hn L i h
      unfold tree at this ⊢
      rw [A n (by omega)]; exact this
    · have := filled_clean.done n hn L i o e
      unfold tree at this ⊢
      rw [A n hn]; exact this
  · rw [A 473 (Nat.le_refl _)]; with_unfolding_all rfl
  · obtain ⟨k, rfl⟩ := Nat.exists_eq_add_of_le hn
    exact no_insert_after E (by rw [A 473 (Nat.le_refl _)]; exact hq) hc k
  · unfold turnedOn
    rw [if_neg (by omega), if_neg (by omega)]
end Verif.Ops
