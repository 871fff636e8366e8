import Verif.Prop.OpsReturn
import Verif.Proof.OpsSpin
set_option linter.unusedSimpArgs false
set_option linter.unusedVariables false
/-! If no more inserts are called, those under way return. -/
namespace Verif.Ops
open Verif.Internode (upd upd_same upd_ne)
open Verif.Spec (Bytes)
open Verif.Index (Al holds)
variable {V : Type} {fixed strict : Bool} {τ : Nat → St V} {β : Nat → Option (Act V)} {N : Nat}

/-! ## What falls comes to rest -/

/-- A measure that never grows stays the same from some moment on. -/
theorem settles {α : Type} {r : α → α → Prop} (W : WellFounded r) {f : Nat → α} {a : Nat} (h : ∀ n, a ≤ n → f (n + 1) = f n ∨ r (f (n + 1)) (f n)) :
    ∃ b, a ≤ b ∧ ∀ n, b ≤ n → f n = f b := by
  have main : ∀ x n, a ≤ n → f n = x → ∃ b, n ≤ b ∧ ∀ n, b ≤ n → f n = f b := by
    intro x
    induction x using W.induction with
    | _ x ih =>
      intro n hn hx
      by_cases g : ∀ m, n ≤ m → f m = f n
      · exact ⟨n, Nat.le_refl n, g⟩
      · classical
        have ex : ∃ k, f (n + k) ≠ f n := Classical.byContradiction fun g' => g fun m hm => Classical.byContradiction fun g2 =>
          g' ⟨m - n, by rw [show n + (m - n) = m by omega]; exact g2⟩
        have h1 := Nat.find_spec ex
        have h2 : ∀ k, k < Nat.find ex → f (n + k) = f n := fun k hk => Classical.not_not.mp (Nat.find_min ex hk)
        generalize Nat.find ex = k at h1 h2
        cases k with
        | zero => exact absurd rfl h1
        | succ k =>
          have e := h2 k (Nat.lt_succ_self k)
          rcases h (n + k) (by omega) with g | g
          · rw [e] at g; exact absurd g h1
          · rw [e, hx] at g
            obtain ⟨b, k1, k2⟩ := ih _ g (n + k + 1) (by omega) rfl
            exact ⟨b, by omega, k2⟩
  obtain ⟨b, h1, h2⟩ := main (f a) a (Nat.le_refl a) rfl
  exact ⟨b, h1, h2⟩

/-- From some moment on for all of finitely many. -/
theorem from_on {P : Nat → Nat → Prop} {a : Nat} : ∀ B, (∀ i, i < B → ∃ b, a ≤ b ∧ ∀ n, b ≤ n → P i n) → ∃ b, a ≤ b ∧ ∀ n, b ≤ n → ∀ i, i < B → P i n
  | 0, _ => ⟨a, Nat.le_refl a, fun _ _ i hi => by omega⟩
  | B + 1, h => by
    obtain ⟨b, h1, h2⟩ := from_on B fun i hi => h i (by omega)
    obtain ⟨c, h3, h4⟩ := h B (Nat.lt_succ_self B)
    refine ⟨b + c, by omega, fun n hn i hi => ?_⟩
    by_cases e : i = B
    · subst e; exact h4 n (by omega)
    · exact h2 n (by omega) i (by omega)

theorem irrefl {α : Type} {r : α → α → Prop} (W : WellFounded r) (x : α) : ¬ r x x := by
  induction x using W.induction with
  | _ x ih => exact fun h => ih x h h

/-- At every moment all but finitely many threads have not called anything. -/
theorem Exec.finite (E : Exec fixed strict τ β) : ∀ n, ∃ B, ∀ i, B ≤ i → (τ n).ph i = .idle
  | 0 => ⟨0, fun i _ => E.start.idle i⟩
  | n + 1 => by
    obtain ⟨B, h⟩ := Exec.finite E n
    cases e : β n with
    | none => rw [(none_eq E e).1]; exact ⟨B, h⟩
    | some x =>
      cases x with
      | call j o =>
        obtain ⟨_, _, _, g⟩ := call_eq E e
        rcases g with ⟨_, g⟩ | ⟨_, _, g⟩
        · rw [g]; exact ⟨B, h⟩
        · refine ⟨B + j + 1, fun i hi => ?_⟩
          rw [g, upd_ne _ _ _ (by omega)]
          exact h i (by omega)
      | run j y qs =>
        obtain ⟨_, _, g, _⟩ := run_eq E e
        refine ⟨B + j + 1, fun i hi => ?_⟩
        rw [g, upd_ne _ _ _ (by omega)]
        exact h i (by omega)

/-- An insert that is under way, and was not just called, was under way before. -/
theorem ins_back (E : Exec fixed strict τ β) {n i : Nat} (hc : ∀ i d v, β n ≠ some (.call i (.insert d v))) (hi : Inserting (τ (n + 1)) i) :
    Inserting (τ n) i ∧ (τ (n + 1)).op i = (τ n).op i := by
  cases e : β n with
  | none => rw [(none_eq E e).1] at hi ⊢; exact ⟨hi, rfl⟩
  | some x =>
    cases x with
    | call j o =>
      obtain ⟨_, _, _, g⟩ := call_eq E e
      rcases g with ⟨_, g⟩ | ⟨g, g1, g2⟩
      · rw [g] at hi ⊢; exact ⟨hi, rfl⟩
      · obtain ⟨h1, d, v, h2⟩ := hi
        by_cases hij : i = j
        · subst hij
          rw [g1, upd_same] at h2
          rw [h2] at e
          exact absurd e (hc _ _ _)
        · rw [g1, upd_ne _ _ _ hij] at h2
          rw [g2, upd_ne _ _ _ hij] at h1
          exact ⟨⟨h1, d, v, h2⟩, by rw [g1, upd_ne _ _ _ hij]⟩
    | run j y qs =>
      obtain ⟨_, k2, k3, _⟩ := run_eq E e
      obtain ⟨h1, d, v, h2⟩ := hi
      rw [k2] at h2
      refine ⟨?_, by rw [k2]⟩
      by_cases hij : i = j
      · subst hij
        cases g : ((τ n).ph i).over with
        | false => exact ⟨g, d, v, h2⟩
        | true =>
          rw [k3, upd_same] at h1
          unfold next at h1
          cases e' : (τ n).ph i <;> rw [e'] at g h1 <;> first | (cases g; done) | cases h1
      · rw [k3, upd_ne _ _ _ hij] at h1
        exact ⟨h1, d, v, h2⟩

/-- A thread with an insert under way that makes no step stays where it is. -/
theorem ins_stay (E : Exec fixed strict τ β) {n i : Nat} (hi : ((τ n).ph i).over = false) (hr : ¬ Runs β i n) : (τ (n + 1)).ph i = (τ n).ph i := by
  cases e : β n with
  | none => rw [(none_eq E e).1]
  | some x =>
    cases x with
    | call j o =>
      obtain ⟨_, _, _, g⟩ := call_eq E e
      rcases g with ⟨_, g⟩ | ⟨g, _, g2⟩
      · rw [g]
      · have : i ≠ j := by rintro rfl; rw [hi] at g; cases g
        rw [g2]; exact upd_ne _ _ _ this
    | run j y qs =>
      have hj : i ≠ j := by rintro rfl; exact hr ⟨y, qs, e⟩
      rw [(run_eq E e).2.2.1]; exact upd_ne _ _ _ hj

theorem Like.trans {w1 w2 w3 : Whole.St V} (h : Like w1 w2) (g : Like w2 w3) : Like w1 w3 :=
  ⟨fun L => (g.live L).trans (h.live L), fun L x => (g.lo L x).trans (h.lo L x), fun L x => (g.nx L x).trans (h.nx L x),
    fun L x => (g.mark L x).trans (h.mark L x), fun L => (g.node L).trans (h.node L)⟩

theorem SameTree.like {s s' : St V} (h : SameTree s s') : Like s.w s'.w :=
  ⟨h.live, fun L x => by rw [h.leaf L], fun L x => by rw [h.leaf L], fun L x => by rw [h.leaf L], h.node⟩

/-! ## Inserts that never return -/

/-- From the moment `a` on no insert is called, and those that are under way never return although their threads go on. -/
structure Stuck (fixed strict : Bool) (τ : Nat → St V) (β : Nat → Option (Act V)) (a : Nat) : Prop where
  E : Exec fixed strict τ β
  C : ∀ N, Clean strict τ β N
  same : ∀ n, a ≤ n → ∀ i, Inserting (τ n) i ↔ Inserting (τ a) i
  op : ∀ n, a ≤ n → ∀ i, Inserting (τ a) i → (τ n).op i = (τ a).op i
  part : ∀ n, a ≤ n → ∀ i, Runs β i n → parting (τ n) i = false
  goes : ∀ n, a ≤ n → ∀ i, Inserting (τ a) i → ∃ m, n ≤ m ∧ Runs β i m ∧ (τ (m + 1) ≠ τ m ∨ ¬ CanMove fixed strict (τ m) i)

namespace Stuck
variable {a : Nat}

theorem later (S : Stuck fixed strict τ β a) {b : Nat} (h : a ≤ b) : Stuck fixed strict τ β b :=
  ⟨S.E, S.C, fun n hn i => (S.same n (by omega) i).trans (S.same b h i).symm,
    fun n hn i hi => (S.op n (by omega) i ((S.same b h i).1 hi)).trans (S.op b h i ((S.same b h i).1 hi)).symm,
    fun n hn => S.part n (by omega), fun n hn i hi => S.goes n (by omega) i ((S.same b h i).1 hi)⟩

theorem over (S : Stuck fixed strict τ β a) {n i : Nat} (hn : a ≤ n) (hi : Inserting (τ a) i) : ((τ n).ph i).over = false :=
  ((S.same n hn i).2 hi).1

theorem begins (S : Stuck fixed strict τ β a) (n L : Nat) (hm : (τ n).w.f.made L = true) (t : Nat) (h : Begins ((τ n).w.f.layer L) t) :
    Begins ((τ (n + 1)).w.f.layer L) t := by
  obtain ⟨x, h1, h2⟩ := h
  obtain ⟨_, g1, g2⟩ := S.E.bound_stays (S.C (n + 1)) (Nat.le_succ n) (Nat.le_refl _) hm h1
  exact ⟨x, g1, g2.trans h2⟩

/-- What an own step does to how far an insert has come. -/
theorem own (S : Stuck fixed strict τ β a) {n i : Nat} {d : Bytes} {v : V} (hn : a ≤ n) (hi : Inserting (τ a) i) (ho : (τ a).op i = .insert d v)
    (hr : Runs β i n) (ne : τ (n + 1) ≠ τ n) :
    (Like (τ n).w (τ (n + 1)).w ∧ ((τ n).ph i).roams = true ∧ ((τ (n + 1)).ph i).roams = true ∧
      stage (τ (n + 1)).w d i ((τ (n + 1)).ph i) = stage (τ n).w d i ((τ n).ph i)) ∨
    Rank.lt (stage (τ (n + 1)).w d i ((τ (n + 1)).ph i)) (stage (τ n).w d i ((τ n).ph i)) := by
  have E := S.E
  have C := S.C (n + 1)
  have ho' : (τ n).op i = .insert d v := (S.op n hn i hi).trans ho
  obtain ⟨y, qs, e⟩ := hr
  obtain ⟨k1, k2, k3, k4, k5⟩ := run_eq E e
  have P := E.phases C n (by omega) i
  have P' := E.phases C (n + 1) (Nat.le_refl _) i
  rw [ho'] at P
  rw [k2, ho', k3, upd_same] at P'
  have ep : (τ (n + 1)).ph i = (next (τ n) i y qs).2 := by rw [k3]; exact upd_same _ _ _
  have F : ∀ L o e, ((τ (n + 1)).w.side L).ix.pc i ≠ .fail o e := fun L o e => C.done (n + 1) (Nat.le_refl _) L i o e
  have ne' := run_changes E e ne
  rw [ep] at ne' ⊢
  rw [k1] at P' F ne' ⊢
  cases hr : ((τ n).ph i).roams with
  | true =>
    rcases roam_own (E.know C (by omega)) ho' P P' (E.way C n (by omega) i d v ho') hr ne' with ⟨h1, h2, h3⟩ | h
    · exact .inl ⟨h1, rfl, h2, h3⟩
    · exact .inr h
  | false =>
    exact .inr (firm_own (E.know C (by omega)) ho' (S.over hn hi) P P' (E.spread C n (by omega) i) ((E.locks C n (by omega)).ok i) hr
      (fun L hm => E.marked C (by omega) hm) F ne')

theorem step (S : Stuck fixed strict τ β a) {i : Nat} {d : Bytes} {v : V} (hi : Inserting (τ a) i) (ho : (τ a).op i = .insert d v) (n : Nat) (hn : a ≤ n) :
    stage (τ (n + 1)).w d i ((τ (n + 1)).ph i) = stage (τ n).w d i ((τ n).ph i) ∨
      Rank.lt (stage (τ (n + 1)).w d i ((τ (n + 1)).ph i)) (stage (τ n).w d i ((τ n).ph i)) := by
  have E := S.E
  have C := S.C (n + 1)
  by_cases hr : Runs β i n
  · by_cases ne : τ (n + 1) = τ n
    · left; rw [ne]
    · rcases S.own hn hi ho hr ne with ⟨_, _, _, h⟩ | h
      · exact .inl h
      · exact .inr h
  · rw [ins_stay E (S.over hn hi) hr]
    have P := E.phases C n (by omega) i
    rw [(S.op n hn i hi).trans ho] at P
    exact stage_keep (E.know C (by omega)) (E.still C (by omega) hr) (S.begins n) P

/-- From some moment on no insert comes further. -/
theorem calm (S : Stuck fixed strict τ β a) : ∃ b, a ≤ b ∧ ∀ n, b ≤ n → ∀ i, Inserting (τ a) i → Runs β i n → τ (n + 1) ≠ τ n →
    Like (τ n).w (τ (n + 1)).w ∧ ((τ n).ph i).roams = true ∧ ((τ (n + 1)).ph i).roams = true := by
  obtain ⟨B, hB⟩ := S.E.finite a
  obtain ⟨b, h1, h2⟩ := from_on (a := a) (P := fun i n => Inserting (τ a) i → Runs β i n → τ (n + 1) ≠ τ n →
      Like (τ n).w (τ (n + 1)).w ∧ ((τ n).ph i).roams = true ∧ ((τ (n + 1)).ph i).roams = true) B fun i _ => by
    by_cases hi : Inserting (τ a) i
    · obtain ⟨_, d, v, ho⟩ := id hi
      obtain ⟨b, h1, h2⟩ := settles Rank.wf (f := fun n => stage (τ n).w d i ((τ n).ph i)) (a := a) (S.step hi ho)
      refine ⟨b, h1, fun n hn _ hr ne => ?_⟩
      rcases S.own (by omega) hi ho hr ne with ⟨h, h', h'', _⟩ | h
      · exact ⟨h, h', h''⟩
      · have e1 : stage (τ n).w d i ((τ n).ph i) = _ := h2 n hn
        have e2 : stage (τ (n + 1)).w d i ((τ (n + 1)).ph i) = _ := h2 (n + 1) (by omega)
        rw [e1, e2] at h
        exact absurd h (irrefl Rank.wf _)
    · exact ⟨a, Nat.le_refl a, fun n _ h => absurd h hi⟩
  refine ⟨b, h1, fun n hn i hi => ?_⟩
  by_cases e : i < B
  · exact h2 n hn i e hi
  · have := hi.1
    rw [hB i (by omega)] at this; cases this
end Stuck

/-- … and nobody comes further. -/
structure Idle (fixed strict : Bool) (τ : Nat → St V) (β : Nat → Option (Act V)) (a : Nat) : Prop extends Stuck fixed strict τ β a where
  calm : ∀ n, a ≤ n → ∀ i, Inserting (τ a) i → Runs β i n → τ (n + 1) ≠ τ n →
    Like (τ n).w (τ (n + 1)).w ∧ ((τ n).ph i).roams = true ∧ ((τ (n + 1)).ph i).roams = true

namespace Idle
variable {a : Nat}

/-- Nobody moves a bound, a link or an internode. -/
theorem like (S : Idle fixed strict τ β a) (n : Nat) (hn : a ≤ n) : Like (τ n).w (τ (n + 1)).w := by
  have E := S.E
  have same : (τ (n + 1)).w = (τ n).w → Like (τ n).w (τ (n + 1)).w := fun e => by rw [e]; exact Like.refl _
  cases e : β n with
  | none => exact same (by rw [(none_eq E e).1])
  | some x =>
    cases x with
    | call j o => exact same (call_eq E e).1
    | run j y qs =>
      cases eo : (τ n).op j with
      | get d => exact (C64_get_writes_nothing E (S.C (n + 1)) (by omega) eo ⟨y, qs, e⟩).1.like
      | insert d v =>
        cases g : ((τ n).ph j).over with
        | true => exact same (by rw [(run_eq E e).1, over_next g]; rfl)
        | false =>
          have hi := (S.same n hn j).1 ⟨g, d, v, eo⟩
          by_cases ne : τ (n + 1) = τ n
          · exact same (by rw [ne])
          · exact (S.calm n hn j hi ⟨y, qs, e⟩ ne).1

theorem heap (S : Idle fixed strict τ β a) {n : Nat} (hn : a ≤ n) (L : Nat) : ∀ k, ((τ (n + k)).w.side L).ix.heap = ((τ n).w.side L).ix.heap
  | 0 => rfl
  | k + 1 => ((S.like (n + k) (by omega)).node L).trans (S.heap hn L k)

/-- A thread none of whose steps changes anything stays where it is. -/
theorem frozen (S : Idle fixed strict τ β a) {n i : Nat} (hn : a ≤ n) (hi : Inserting (τ a) i) (h : ∀ m, n ≤ m → Runs β i m → (τ m).ph i = (τ n).ph i → τ (m + 1) = τ m) :
    ∀ k, (τ (n + k)).ph i = (τ n).ph i ∧ (∀ L, ((τ (n + k)).w.side L).ix.pc i = ((τ n).w.side L).ix.pc i) ∧
      ∀ L, ((τ (n + k)).w.side L).ins i = ((τ n).w.side L).ins i
  | 0 => ⟨rfl, fun _ => rfl, fun _ => rfl⟩
  | k + 1 => by
    obtain ⟨h1, h2, h3⟩ := S.frozen hn hi h k
    by_cases hr : Runs β i (n + k)
    · have e := h (n + k) (by omega) hr h1
      rw [show n + (k + 1) = n + k + 1 from rfl, e]
      exact ⟨h1, h2, h3⟩
    · have F := S.E.still (S.C (n + k + 1)) (n := n + k) (by omega) hr
      exact ⟨(ins_stay S.E (S.over (by omega) hi) hr).trans h1, fun L => (F.pc L).trans (h2 L), fun L => (F.ins L).trans (h3 L)⟩

/-- Then there comes a moment when it cannot move. -/
theorem waits (S : Idle fixed strict τ β a) {n i : Nat} (hn : a ≤ n) (hi : Inserting (τ a) i) (h : ∀ m, n ≤ m → Runs β i m → (τ m).ph i = (τ n).ph i → τ (m + 1) = τ m) :
    ∃ m, n ≤ m ∧ ¬ CanMove fixed strict (τ m) i ∧ parting (τ m) i = false ∧ (τ m).ph i = (τ n).ph i ∧
      (∀ L, ((τ m).w.side L).ix.pc i = ((τ n).w.side L).ix.pc i) ∧ ∀ L, ((τ m).w.side L).ins i = ((τ n).w.side L).ins i := by
  obtain ⟨m, h1, h2, h3⟩ := S.goes n hn i hi
  have fr := S.frozen hn hi h (m - n)
  rw [show n + (m - n) = m by omega] at fr
  refine ⟨m, h1, ?_, S.part m (by omega) i h2, fr⟩
  rcases h3 with h3 | h3
  · exact absurd (h m h1 h2 fr.1) h3
  · exact h3

theorem firm (S : Idle fixed strict τ β a) {n i : Nat} (hn : a ≤ n) (hi : Inserting (τ a) i) (hr : ((τ n).ph i).roams = false) :
    ∀ m, n ≤ m → Runs β i m → (τ m).ph i = (τ n).ph i → τ (m + 1) = τ m := fun m hm hx e =>
  Classical.byContradiction fun ne => by
    have := (S.calm m (by omega) i hi hx ne).2.1
    rw [e, hr] at this; cases this

/-- On the way down an insert holds no internode. -/
theorem holds_none (S : Idle fixed strict τ β a) {n i : Nat} (hn : a ≤ n) (hi : Inserting (τ n) i) (hr : ((τ n).ph i).roams = true) (L : Nat) :
    holds (((τ n).w.side L).ix.pc i) = [] := by
  obtain ⟨_, d, v, ho⟩ := hi
  have P := S.E.phases (S.C n) n (Nat.le_refl n) i
  have W := S.E.way (S.C n) n (Nat.le_refl n) i d v ho
  rw [ho] at P
  cases ep : (τ n).ph i with
  | enter L' m => rw [ep] at P; exact home_holds (P.1 L)
  | down L' m =>
    rw [ep] at P W
    by_cases e : L = L'
    · subst e; exact way_holds W
    · exact home_holds (P.1.away L e)
  | undo L' m x =>
    rw [ep] at P W
    by_cases e : L = L'
    · subst e
      obtain ⟨o, r, W⟩ := W
      rw [W]; rfl
    · exact home_holds (P.1.away L e)
  | _ => rw [ep] at hr; cases hr

/-- No internode is locked. -/
theorem no_bar (S : Idle fixed strict τ β a) {n : Nat} (hn : a ≤ n) : ¬ Barred (τ n).w := by
  intro h
  obtain ⟨L, j, hu, hj, hw⟩ := S.E.holds_one (S.C n) (Nat.le_refl n) h
  obtain ⟨ij, _⟩ := S.E.holder (S.C n) (Nat.le_refl n) hu hj hw
  have hr : ((τ n).ph j).roams = false := by
    cases e : ((τ n).ph j).roams with
    | false => rfl
    | true => exact absurd (S.holds_none hn ij e L) hj
  have ia := (S.same n hn j).1 ij
  obtain ⟨m, h1, h2, _, _, h4, _⟩ := S.waits hn ia (S.firm hn ia hr)
  have eh := S.heap hn L (m - n)
  rw [show n + (m - n) = m by omega] at eh
  have hj' : holds (((τ m).w.side L).ix.pc j) ≠ [] := by rw [h4 L]; exact hj
  have hu' : (τ m).w.f.up L = true := by
    cases e : (τ m).w.f.up L with
    | true => rfl
    | false =>
      have := (S.E.know (S.C m) (Nat.le_refl m)).ok.unused L e
      rw [this] at hj'
      exact absurd rfl hj'
  exact h2 (S.E.holder (S.C m) (Nat.le_refl m) hu' hj' (by rw [eh, h4 L]; exact hw)).2

/-- Every insert is on the way down. -/
theorem roams (S : Idle fixed strict τ β a) {n i : Nat} (hn : a ≤ n) (hi : Inserting (τ a) i) : ((τ n).ph i).roams = true := by
  cases hr : ((τ n).ph i).roams with
  | true => rfl
  | false =>
    obtain ⟨m, h1, h2, h3, h4, _⟩ := S.waits hn hi (S.firm hn hi hr)
    rcases S.E.put_live (S.C m) (Nat.le_refl m) ((S.same m (by omega) i).2 hi) with g | g | ⟨g, _⟩ | ⟨_, g, _⟩
    · exact absurd g h2
    · rw [h3] at g; cases g
    · exact absurd g (S.no_bar (by omega))
    · rw [h4] at g
      cases e : (τ n).ph i <;> rw [e] at g hr <;> first | (cases g; done) | cases hr

theorem still (S : Idle fixed strict τ β a) {n : Nat} (hn : a ≤ n) (L : Nat) (hu : (τ n).w.f.up L = true) : Still (L == 0) ((τ n).w.side L).ix.heap := by
  refine none_still S.E (S.C n) (Nat.le_refl n) L hu fun j => ?_
  cases eo : (τ n).op j with
  | get d => exact no_holds ((S.E.locks (S.C n) n (Nat.le_refl n)).get j d eo L)
  | insert d v =>
    cases eb : ((τ n).ph j).over with
    | true => exact home_holds (over_home (S.E.phases (S.C n) n (Nat.le_refl n) j) eb L)
    | false =>
      have ij : Inserting (τ n) j := ⟨eb, d, v, eo⟩
      exact S.holds_none hn ij (S.roams hn ((S.same n hn j).1 ij)) L

/-- An own step on the way down. -/
theorem down (S : Idle fixed strict τ β a) {n i : Nat} {d : Bytes} {v : V} (hn : a ≤ n) (hi : Inserting (τ a) i) (ho : (τ a).op i = .insert d v)
    (hr : Runs β i n) (ne : τ (n + 1) ≠ τ n) : spinLt (spin (τ (n + 1)).w d i ((τ (n + 1)).ph i)) (spin (τ n).w d i ((τ n).ph i)) := by
  have E := S.E
  have C := S.C (n + 1)
  have ho' : (τ n).op i = .insert d v := (S.op n hn i hi).trans ho
  have r1 := S.roams hn hi
  have r2 := S.roams (n := n + 1) (by omega) hi
  obtain ⟨y, qs, e⟩ := hr
  obtain ⟨k1, k2, k3, k4, k5⟩ := run_eq E e
  have P := E.phases C n (by omega) i
  have P' := E.phases C (n + 1) (Nat.le_refl _) i
  rw [ho'] at P
  rw [k2, ho', k3, upd_same] at P'
  have ep : (τ (n + 1)).ph i = (next (τ n) i y qs).2 := by rw [k3]; exact upd_same _ _ _
  have F : ∀ L o e, ((τ (n + 1)).w.side L).ix.pc i ≠ .fail o e := fun L o e => C.done (n + 1) (Nat.le_refl _) L i o e
  have ne' := run_changes E e ne
  rw [ep] at ne' r2 ⊢
  rw [k1] at P' F ne' ⊢
  exact spin_own (E.know C (by omega)) ho' (S.over hn hi) P P' (E.spread C n (by omega) i) ((E.locks C n (by omega)).ok i)
    (E.way C n (by omega) i d v ho') (fun L hu => S.still hn L hu) (fun L hm => E.marked C (by omega) hm) F r1 r2 ne'

/-- From some moment on no step of an insert changes anything. -/
theorem dead (S : Idle fixed strict τ β a) : ∃ b, a ≤ b ∧ ∀ n, b ≤ n → ∀ i, Inserting (τ a) i → Runs β i n → τ (n + 1) = τ n := by
  obtain ⟨B, hB⟩ := S.E.finite a
  obtain ⟨b, h1, h2⟩ := from_on (a := a) (P := fun i n => Inserting (τ a) i → Runs β i n → τ (n + 1) = τ n) B fun i _ => by
    by_cases hi : Inserting (τ a) i
    · obtain ⟨_, d, v, ho⟩ := id hi
      obtain ⟨b, h1, h2⟩ := settles spinLt_wf (f := fun n => spin (τ n).w d i ((τ n).ph i)) (a := a) fun n hn => by
        by_cases hr : Runs β i n
        · by_cases ne : τ (n + 1) = τ n
          · left; show spin _ _ _ _ = spin _ _ _ _; rw [ne]
          · exact .inr (S.down hn hi ho hr ne)
        · left
          show spin _ _ _ _ = spin _ _ _ _
          rw [ins_stay S.E (S.over hn hi) hr]
          exact spin_keep (S.E.still (S.C (n + 1)) (by omega) hr) (S.like n hn) (S.roams hn hi)
      refine ⟨b, h1, fun n hn _ hr => Classical.byContradiction fun ne => ?_⟩
      have h := S.down (by omega) hi ho hr ne
      have e1 : spin (τ n).w d i ((τ n).ph i) = _ := h2 n hn
      have e2 : spin (τ (n + 1)).w d i ((τ (n + 1)).ph i) = _ := h2 (n + 1) (by omega)
      rw [e1, e2] at h
      exact absurd h (irrefl spinLt_wf _)
    · exact ⟨a, Nat.le_refl a, fun n _ h => absurd h hi⟩
  refine ⟨b, h1, fun n hn i hi => ?_⟩
  by_cases e : i < B
  · exact h2 n hn i e hi
  · have := hi.1
    rw [hB i (by omega)] at this; cases this

theorem none (S : Idle fixed strict τ β a) (i : Nat) : ¬ Inserting (τ a) i := by
  intro hi
  obtain ⟨b, hb, D⟩ := S.dead
  obtain ⟨m, h1, h2, h3, _⟩ := S.waits hb hi fun m hm hr _ => D m hm i hi hr
  rcases S.E.put_live (S.C m) (Nat.le_refl m) ((S.same m (by omega) i).2 hi) with g | g | ⟨g, _⟩ | ⟨g, _, _⟩
  · exact h2 g
  · rw [h3] at g; cases g
  · exact S.no_bar (by omega) g
  · obtain ⟨L, x, hm, hx⟩ := g
    have H := S.E.locks (S.C m) m (Nat.le_refl m)
    obtain ⟨k, hk⟩ := H.keep L x hm hx
    have ik := keeps_inserting (S.E.phases (S.C m) m (Nat.le_refl m) k) hk (fun d e => H.get k d e)
    have ia := (S.same m (by omega) k).1 ik
    obtain ⟨m', j1, j2, j3, j4, j5, j6⟩ := S.waits (n := m) (by omega) ia fun q hq hr _ => D q (by omega) k ia hr
    rcases S.E.put_live (S.C m') (Nat.le_refl m') ((S.same m' (by omega) k).2 ia) with g | g | ⟨g, _⟩ | ⟨_, g1, g⟩
    · exact j2 g
    · rw [j3] at g; cases g
    · exact S.no_bar (by omega) g
    · apply g L x
      rw [j4] at g1 ⊢
      cases e : (τ m).ph k <;> rw [e] at g1 <;> first | (cases g1; done) | skip
      rename_i L' q
      rw [e] at hk
      obtain ⟨h1, ⟨o, r, n, h2⟩, h3⟩ := hk
      refine ⟨h1, ⟨o, r, n, by rw [j5]; exact h2⟩, ?_⟩
      rw [j6]; exact h3
end Idle

theorem Stuck.none {a : Nat} (S : Stuck fixed strict τ β a) (i : Nat) : ¬ Inserting (τ a) i := by
  obtain ⟨b, h1, h2⟩ := S.calm
  have S' := S.later h1
  have I : Idle fixed strict τ β b := ⟨S', fun n hn j hj => h2 n hn j ((S.same b h1 j).1 hj)⟩
  exact fun hi => I.none i ((S.same b h1 i).2 hi)

/-- If no insert is called any more, those under way return. -/
theorem all_return (E : Exec fixed strict τ β) (C : ∀ N, Clean strict τ β N) {a : Nat} (hc : ∀ n, a ≤ n → ∀ i d v, β n ≠ some (.call i (.insert d v)))
    (hp : ∀ n, a ≤ n → ∀ i, Runs β i n → parting (τ n) i = false)
    (hr : ∀ n, a ≤ n → ∀ i, Inserting (τ n) i → ∃ m, n ≤ m ∧ Runs β i m ∧ (τ (m + 1) ≠ τ m ∨ ¬ CanMove fixed strict (τ m) i)) :
    ∃ b, a ≤ b ∧ ∀ n, b ≤ n → ∀ i, ¬ Inserting (τ n) i := by
  have back : ∀ i n k, a ≤ n → Inserting (τ (n + k)) i → Inserting (τ n) i ∧ (τ (n + k)).op i = (τ n).op i := by
    intro i n k hn
    induction k with
    | zero => exact fun h => ⟨h, rfl⟩
    | succ k ih =>
      intro h
      obtain ⟨h1, h2⟩ := ins_back E (hc (n + k) (by omega)) h
      obtain ⟨h3, h4⟩ := ih h1
      exact ⟨h3, h2.trans h4⟩
  have back' : ∀ i n m, a ≤ n → n ≤ m → Inserting (τ m) i → Inserting (τ n) i ∧ (τ m).op i = (τ n).op i := fun i n m hn hm h => by
    have := back i n (m - n) hn
    rw [show n + (m - n) = m by omega] at this
    exact this h
  obtain ⟨B, hB⟩ := E.finite a
  obtain ⟨b, h1, h2⟩ := from_on (a := a) (P := fun i n => Inserting (τ n) i → ∀ m, n ≤ m → Inserting (τ m) i) B fun i _ => by
    by_cases g : ∃ n, a ≤ n ∧ ¬ Inserting (τ n) i
    · obtain ⟨n, g1, g2⟩ := g
      exact ⟨n, g1, fun m hm h => absurd (back' i n m g1 hm h).1 g2⟩
    · exact ⟨a, Nat.le_refl a, fun n hn _ m hm => Classical.byContradiction fun h => g ⟨m, by omega, h⟩⟩
  have h2' : ∀ i, Inserting (τ b) i → ∀ m, b ≤ m → Inserting (τ m) i := fun i hi => by
    by_cases e : i < B
    · exact h2 b (Nat.le_refl b) i e hi
    · have := (back' i a b (Nat.le_refl a) h1 hi).1.1
      rw [hB i (by omega)] at this; cases this
  have S : Stuck fixed strict τ β b := ⟨E, C, fun n hn i => ⟨fun h => (back' i b n h1 hn h).1, fun h => h2' i h n hn⟩,
    fun n hn i hi => (back' i b n h1 hn (h2' i hi n hn)).2, fun n hn => hp n (by omega), fun n hn i hi => hr n (by omega) i (h2' i hi n hn)⟩
  exact ⟨b, h1, fun n hn i h => S.none i (back' i b n h1 hn h).1⟩
end Verif.Ops
