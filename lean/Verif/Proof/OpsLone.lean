import Verif.Proof.OpsAim
import Verif.Proof.ChainMark
import Mathlib.Data.Nat.Find
set_option linter.unusedSimpArgs false
set_option linter.unusedVariables false
/-! An insert that is the only one under way comes nearer to its end with each of its steps. -/
namespace Verif.Ops
open Verif.Internode (upd upd_same upd_ne)
open Verif.Spec (Bytes)
open Verif.Perm (size get)
open Verif.Index (Al holds)
open Verif.Tree (searchForInsert leafWidth Leaf)
open Verif.Whole (Inside isLocked Frame WOk LAct onLeaves beside raw lact inIndex LOk IPc)
variable {V : Type} {fixed strict : Bool}

/-! ## The bounds of the leaves -/

/-- A leaf begins at `t`. -/
def Begins (c : Chain.St V) (t : Nat) : Prop := ∃ x, c.live x = true ∧ (c.leaf x).lo = t

/-- Whether something begins to the right of `k`. -/
noncomputable def last (P : Nat → Prop) (k : Nat) : Nat := by
  classical exact if ∃ t, k < t ∧ P t then 0 else 1

/-- Where the next begins to the right of `k`. -/
noncomputable def after1 (P : Nat → Prop) (k : Nat) : Nat := by
  classical exact if h : ∃ t, k < t ∧ P t then Nat.find h else 0

/-- How many places up to `k` are none where something begins. -/
noncomputable def gaps (P : Nat → Prop) (k : Nat) : Nat := by
  classical exact ((List.range (k + 1)).filter fun t => Decidable.decide (¬ P t)).length

/-- Ranks, the first component counts most. -/
abbrev Rank := Nat × Nat × Nat × Nat × Nat × Nat

/-- Less. -/
def Rank.lt : Rank → Rank → Prop := WellFoundedRelation.rel

theorem Rank.wf : WellFounded Rank.lt := WellFoundedRelation.wf

theorem Rank.l1 {a b c e f g a' b' c' e' f' g' : Nat} (h : a < a') : Rank.lt (a, b, c, e, f, g) (a', b', c', e', f', g') := Prod.Lex.left _ _ h
theorem Rank.l2 {a b c e f g b' c' e' f' g' : Nat} (h : b < b') : Rank.lt (a, b, c, e, f, g) (a, b', c', e', f', g') :=
  Prod.Lex.right _ (Prod.Lex.left _ _ h)
theorem Rank.l3 {a b c e f g c' e' f' g' : Nat} (h : c < c') : Rank.lt (a, b, c, e, f, g) (a, b, c', e', f', g') :=
  Prod.Lex.right _ (Prod.Lex.right _ (Prod.Lex.left _ _ h))
theorem Rank.l4 {a b c e f g e' f' g' : Nat} (h : e < e') : Rank.lt (a, b, c, e, f, g) (a, b, c, e', f', g') :=
  Prod.Lex.right _ (Prod.Lex.right _ (Prod.Lex.right _ (Prod.Lex.left _ _ h)))
theorem Rank.l5 {a b c e : Nat} {x y : Nat × Nat} (h : Below x y) : Rank.lt (a, b, c, e, x.1, x.2) (a, b, c, e, y.1, y.2) := by
  refine Prod.Lex.right _ (Prod.Lex.right _ (Prod.Lex.right _ (Prod.Lex.right _ ?_)))
  rcases h with h | ⟨h1, h2⟩
  · exact Prod.Lex.left _ _ h
  · rw [h1]; exact Prod.Lex.right _ h2

theorem gaps_lt {P P' : Nat → Prop} {k y : Nat} (hy : y ≤ k) (hn : ¬ P y) (h : ∀ t, P' t ↔ P t ∨ t = y) : gaps P' k < gaps P k := by
  classical
  unfold gaps
  have e : (List.range (k + 1)).filter (fun t => Decidable.decide (¬ P' t)) =
      ((List.range (k + 1)).filter (fun t => Decidable.decide (¬ P t))).filter (fun t => Decidable.decide (t ≠ y)) := by
    rw [List.filter_filter]
    congr 1
    funext t
    simp only [h, not_or, Bool.decide_and, ne_eq, Bool.and_comm]
  rw [e]
  refine List.length_filter_lt_length_iff_exists.2 ⟨y, ?_, by simp⟩
  rw [List.mem_filter]
  exact ⟨List.mem_range.2 (by omega), by simpa using hn⟩

/-- A new bound brings the bounds on the two sides of a key nearer to each other. -/
theorem span_lt {P P' : Nat → Prop} {k y : Nat} (h : ∀ t, P' t ↔ P t ∨ t = y) (hn : ¬ P y) (hb : ∀ t, P t → k < t → y < t) {a f g f' g' : Nat} :
    Rank.lt (a, last P' k, after1 P' k, gaps P' k, f, g) (a, last P k, after1 P k, gaps P k, f', g') := by
  classical
  by_cases hy : y ≤ k
  · have e : ∀ t, (k < t ∧ P' t) ↔ (k < t ∧ P t) := by
      intro t
      rw [h]
      constructor
      · rintro ⟨h1, h2 | h2⟩
        · exact ⟨h1, h2⟩
        · omega
      · exact fun h1 => ⟨h1.1, .inl h1.2⟩
    have e : (fun t => k < t ∧ P' t) = (fun t => k < t ∧ P t) := funext fun t => propext (e t)
    have e1 : last P' k = last P k := by unfold last; rw [show (∃ t, k < t ∧ P' t) = (∃ t, k < t ∧ P t) from congrArg _ e]
    have e2 : after1 P' k = after1 P k := by
      unfold after1
      by_cases g : ∃ t, k < t ∧ P t
      · have g' : ∃ t, k < t ∧ P' t := by rw [show (∃ t, k < t ∧ P' t) = (∃ t, k < t ∧ P t) from congrArg _ e]; exact g
        rw [dif_pos g, dif_pos g']
        congr 1
      · have g' : ¬ ∃ t, k < t ∧ P' t := by rw [show (∃ t, k < t ∧ P' t) = (∃ t, k < t ∧ P t) from congrArg _ e]; exact g
        rw [dif_neg g, dif_neg g']
    rw [e1, e2]
    exact Rank.l4 (gaps_lt hy hn h)
  · have g' : ∃ t, k < t ∧ P' t := ⟨y, by omega, (h y).2 (.inr rfl)⟩
    by_cases g : ∃ t, k < t ∧ P t
    · have e1 : last P' k = last P k := by unfold last; rw [if_pos g, if_pos g']
      rw [e1]
      refine Rank.l3 ?_
      unfold after1
      rw [dif_pos g, dif_pos g']
      have h1 := Nat.find_spec g
      have h2 := hb _ h1.2 h1.1
      exact Nat.lt_of_le_of_lt (Nat.find_min' g' ⟨by omega, (h y).2 (.inr rfl)⟩) h2
    · refine Rank.l2 ?_
      unfold last
      rw [if_neg g, if_pos g']
      exact Nat.zero_lt_one

/-! ## Steps in the leaves and their bounds -/

section
variable {c : Chain.St V}

theorem chain_bounds (I : Chain.Inv c) (b : Chain.Act V) (hb : ∀ x lv y, b = .hold x → c.hold x ≠ .publish lv y) :
    (Chain.act fixed c b).live = c.live ∧ ∀ x, c.live x = true → ((Chain.act fixed c b).leaf x).lo = (c.leaf x).lo := by
  have one : ∀ (z : Nat) (l : Chain.LeafSt V), l.lo = (c.leaf z).lo → ∀ x, (upd c.leaf z l x).lo = (c.leaf x).lo := by
    intro z l h x
    by_cases e : x = z
    · subst e; rw [upd_same]; exact h
    · rw [upd_ne _ _ _ e]
  have two : ∀ (z z' : Nat) (l l' : Chain.LeafSt V), l.lo = (c.leaf z).lo → l'.lo = (c.leaf z').lo → ∀ x, (upd (upd c.leaf z l) z' l' x).lo = (c.leaf x).lo := by
    intro z z' l l' h h' x
    by_cases e : x = z'
    · subst e; rw [upd_same]; exact h'
    · rw [upd_ne _ _ _ e]; exact one z l h x
  cases b with
  | lock x => simp only [Chain.act]; split <;> exact ⟨rfl, fun z _ => by first | (refine one _ _ ?_ z; rfl) | rfl⟩
  | write x t ik kl c' sf =>
    simp only [Chain.act]; (repeat' split) <;> exact ⟨rfl, fun z _ => by first | (refine one _ _ ?_ z; rfl) | rfl⟩
  | publish x pos off =>
    simp only [Chain.act]; (repeat' split) <;> exact ⟨rfl, fun z _ => by first | (refine one _ _ ?_ z; rfl) | rfl⟩
  | update x t v =>
    simp only [Chain.act]; (repeat' split) <;> exact ⟨rfl, fun z _ => by first | (refine one _ _ ?_ z; rfl) | rfl⟩
  | convert x t q =>
    simp only [Chain.act]; (repeat' split) <;> exact ⟨rfl, fun z _ => by first | (refine one _ _ ?_ z; rfl) | rfl⟩
  | giveUp x =>
    simp only [Chain.act]; (repeat' split) <;> exact ⟨rfl, fun z _ => rfl⟩
  | markSplit x =>
    simp only [Chain.act]; (repeat' split) <;> exact ⟨rfl, fun z _ => by first | (refine one _ _ ?_ z; rfl) | rfl⟩
  | release x =>
    simp only [Chain.act]; (repeat' split) <;> exact ⟨rfl, fun z _ => by first | (refine one _ _ ?_ z; rfl) | rfl⟩
  | start i x k =>
    simp only [Chain.act]; (repeat' split) <;> exact ⟨rfl, fun z _ => rfl⟩
  | read i => exact ⟨rfl, fun z _ => rfl⟩
  | freeze x sp y =>
    simp only [Chain.act]
    split
    · split
      · rename_i g
        refine ⟨rfl, fun z hz => ?_⟩
        have hzy : z ≠ y := by rintro rfl; have := I.used z hz; rw [g.2.2.2.1] at this; cases this
        by_cases e : z = x
        · subst e; simp only [upd_same]
        · simp only [upd_ne _ _ _ e, upd_ne _ _ _ hzy]
      · exact ⟨rfl, fun z _ => rfl⟩
    · exact ⟨rfl, fun z _ => rfl⟩
  | hold x =>
    simp only [Chain.act, Chain.hstep]
    cases e : c.hold x with
    | publish lv y => exact absurd e (hb x lv y rfl)
    | take lv r sp y j =>
      dsimp only
      split
      · exact ⟨rfl, fun z _ => by refine two _ _ _ _ ?_ ?_ z <;> rfl⟩
      · exact ⟨rfl, fun z _ => rfl⟩
    | unfreeze lv r sp y =>
      exact ⟨rfl, fun z _ => by refine two _ _ _ _ ?_ ?_ z <;> rfl⟩
    | clear lv r sp y j =>
      dsimp only
      split
      · exact ⟨rfl, fun z _ => by (refine one _ _ ?_ z; rfl)⟩
      · exact ⟨rfl, fun z _ => rfl⟩
    | mark lv y => exact ⟨rfl, fun z _ => by (refine one _ _ ?_ z; rfl)⟩
    | setNext lv y => exact ⟨rfl, fun z _ => by (refine one _ _ ?_ z; rfl)⟩
    | unlock lv => exact ⟨rfl, fun z _ => by (refine one _ _ ?_ z; rfl)⟩
    | conv lv t q st => exact ⟨rfl, fun z _ => by (refine one _ _ ?_ z; rfl)⟩
    | _ => exact ⟨rfl, fun z _ => rfl⟩

theorem begins_eq {c' : Chain.St V} (h1 : c'.live = c.live) (h2 : ∀ x, c.live x = true → (c'.leaf x).lo = (c.leaf x).lo) : Begins c' = Begins c := by
  funext t
  apply propext
  unfold Begins
  rw [h1]
  constructor
  · rintro ⟨x, h, e⟩; exact ⟨x, h, by rw [← h2 x h]; exact e⟩
  · rintro ⟨x, h, e⟩; exact ⟨x, h, by rw [h2 x h]; exact e⟩

theorem raw_begins (I : Chain.Inv c) (b : Chain.Act V) (hb : ∀ x lv y, b = .hold x → c.hold x ≠ .publish lv y) : Begins (raw fixed c b) = Begins c := by
  have one : ∀ (z : Nat) (l : Chain.LeafSt V), l.lo = (c.leaf z).lo → ∀ x, (upd c.leaf z l x).lo = (c.leaf x).lo := by
    intro z l h x
    by_cases e : x = z
    · subst e; rw [upd_same]; exact h
    · rw [upd_ne _ _ _ e]
  cases b with
  | start i x k => exact begins_eq rfl fun _ _ => rfl
  | publish x pos off => exact begins_eq rfl fun z _ => by (refine one x _ ?_ z; rfl)
  | lock x => exact begins_eq rfl fun z _ => by (refine one x _ ?_ z; rfl)
  | _ => exact begins_eq (chain_bounds (fixed := fixed) I _ hb).1 (chain_bounds (fixed := fixed) I _ hb).2

theorem publish_begins (I : Chain.Inv c) {x y : Nat} {lv : NV.W} (e : c.hold x = .publish lv y) (t : Nat) :
    Begins (raw fixed c (.hold x)) t ↔ Begins c t ∨ t = (c.leaf y).lo := by
  obtain ⟨h1, h2, h3, _⟩ := I.new x y (by rw [e]; rfl)
  have lo : ∀ z, ((raw fixed c (.hold x)).leaf z).lo = (c.leaf z).lo := by
    intro z
    simp only [raw, Chain.act, Chain.hstep, e]
    by_cases g : z = x
    · subst g; rw [upd_same]
    · rw [upd_ne _ _ _ g]
  have lv : (raw fixed c (.hold x)).live = upd c.live y true := by simp only [raw, Chain.act, Chain.hstep, e]
  unfold Begins
  constructor
  · rintro ⟨z, hz, ez⟩
    rw [lo] at ez
    rw [lv] at hz
    by_cases g : z = y
    · subst g; exact .inr ez.symm
    · rw [upd_ne _ _ _ g] at hz; exact .inl ⟨z, hz, ez⟩
  · rintro (⟨z, hz, ez⟩ | g)
    · refine ⟨z, ?_, by rw [lo]; exact ez⟩
      rw [lv]
      by_cases g : z = y
      · subst g; exact upd_same _ _ _
      · rw [upd_ne _ _ _ g]; exact hz
    · exact ⟨y, by rw [lv]; exact upd_same _ _ _, by rw [lo]; exact g.symm⟩
end

/-! ## The rank -/

/-- The key belongs to no leaf further to the right. -/
def Owner (c : Chain.St V) (k x : Nat) : Prop := (c.leaf x).nx ≠ 0 → k < (c.leaf (c.leaf x).nx).lo

/-- An insert that nobody disturbs is at the leaf of its key. -/
def AimIns (c : Chain.St V) (k : Nat) : IPc → Prop
  | .adv h x => 0 < h ∧ Owner c k x
  | .bound _ x z => Owner c k x ∧ z = (c.leaf x).nx ∧ z ≠ 0
  | .lock x | .check x => Owner c k x
  | .own _ => True

/-- In the descent or among the leaves. -/
def onWay : Index.Pc Unit → Bool
  | .adv _ _ _ _ | .sect _ _ _ => true
  | p => falls p

/-- An insert that nobody disturbs is on the way to the leaf of its key. -/
def AimAt (w : Whole.St V) (i : Nat) : Ph V → Prop
  | .down L _ => onWay ((w.side L).ix.pc i) = true ∧ Aim (w.side L).ix.heap ((w.side L).ix.pc i) ∧
      ∀ o r n, (w.side L).ix.pc i = .sect o r n → AimIns (w.f.layer L) o.key ((w.side L).ins i)
  | .undo _ _ _ => False
  | _ => True

/-- Steps up to the check under the lock. -/
def insRank : IPc → Nat
  | .adv _ _ => 4
  | .bound _ _ _ => 3
  | .lock _ => 2
  | .check _ => 1
  | .own _ => 0

/-- Steps of a split and of a conversion. -/
def holdRank : Chain.HPc → Nat
  | .take _ _ _ _ j => 200 + 2 * (40 - j) + 1
  | .clear _ _ _ _ j => 200 + 2 * (40 - j)
  | .unfreeze _ _ _ _ => 5
  | .mark _ _ => 4
  | .setNext _ _ => 3
  | .publish _ _ => 2
  | .conv _ _ _ st => 10 - st
  | _ => 0

/-- Where it is on the way down. -/
def spot (w : Whole.St V) (L i : Nat) : Nat × Nat :=
  match (w.side L).ix.pc i with
  | .sect _ _ _ => (4, insRank ((w.side L).ins i))
  | p => fall (w.side L).ix.heap p

/-- The rank of an insert in layer `L`. -/
noncomputable def inLayerRank (w : Whole.St V) (d : Bytes) (L m : Nat) (x : Nat × Nat) : Rank :=
  (2 * (d.length - 8 * m) + 2, last (Begins (w.f.layer L)) (kat d m).ikey, after1 (Begins (w.f.layer L)) (kat d m).ikey,
    gaps (Begins (w.f.layer L)) (kat d m).ikey, x.1, x.2)

/-- The rank of an insert. -/
noncomputable def rank (w : Whole.St V) (d : Bytes) (i : Nat) : Ph V → Rank
  | .enter L m => inLayerRank w d L m (8, 0)
  | .down L m => inLayerRank w d L m (spot w L i)
  | .freeze L m _ _ => inLayerRank w d L m (3, 1000)
  | .part L m x _ => inLayerRank w d L m (3, holdRank ((w.f.layer L).hold x))
  | .prop L m _ _ n => inLayerRank w d L m (9, left ((w.side L).ix.pc i) + (2 - n))
  | .drop _ _ (.layer _ m) => (2 * (d.length - 8 * m) + 3, 0, 0, 0, 0, 0)
  | .store _ _ _ _ _ _ n => (0, 0, 0, 0, 5, 10 - n)
  | .publish _ _ _ _ _ => (0, 0, 0, 0, 4, 0)
  | .conv L _ x => (0, 0, 0, 0, 3, holdRank ((w.f.layer L).hold x))
  | .close _ _ _ => (0, 0, 0, 0, 2, 0)
  | .drop _ _ _ => (0, 0, 0, 0, 1, 0)
  | .count => (0, 0, 0, 0, 0, 1)
  | _ => (0, 0, 0, 0, 0, 0)

theorem inLayer_lt {w w' : Whole.St V} {d : Bytes} {L m : Nat} {x y : Nat × Nat} (e : Begins (w'.f.layer L) = Begins (w.f.layer L)) (h : Below x y) :
    Rank.lt (inLayerRank w' d L m x) (inLayerRank w d L m y) := by
  unfold inLayerRank
  rw [e]
  exact Rank.l5 h

theorem zero_lt {w : Whole.St V} {d : Bytes} {L m b c e f g : Nat} {x : Nat × Nat} : Rank.lt (0, b, c, e, f, g) (inLayerRank w d L m x) :=
  Rank.l1 (by omega)

theorem zero_lt' {b c e : Nat} {x y : Nat × Nat} (h : Below x y) : Rank.lt (0, b, c, e, x.1, x.2) (0, b, c, e, y.1, y.2) := Rank.l5 h

section
variable {w : Whole.St V} {L : Nat}

theorem begins_post (W : WOk w) (hu : w.f.up L = true) (a : LAct V)
    (hb : ∀ x lv y, onLeaves (w.lay L) a = some (.hold x) → (w.f.layer L).hold x ≠ .publish lv y) :
    Begins ((Whole.act fixed strict w (.inLayer L a)).f.layer L) = Begins (w.f.layer L) := by
  rw [post_layer_same hu]
  unfold lact
  dsimp only
  cases e : onLeaves (w.lay L) a with
  | none => rfl
  | some b => exact raw_begins (W.ok L (W.basic.made L hu)).C b fun x lv y g => hb x lv y (by rw [e, g])

/-- A step that changes nothing in its layer changes nothing. -/
theorem act_same (a : LAct V) (h1 : onLeaves (w.lay L) a = none) (h2 : beside strict (L == 0) (w.lay L) a = w.side L) :
    Whole.act fixed strict w (.inLayer L a) = w := by
  simp only [Whole.act]
  split
  · simp only [lact, h1, h2, Bool.or_false]
    rw [show (w.lay L).c = w.f.layer L from rfl, Whole.upd_self, Whole.upd_self]
  · rfl
end
end Verif.Ops
