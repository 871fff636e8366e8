import Verif.Proof.WholeStep
import Verif.Spec.Whole
set_option linter.unusedSimpArgs false
set_option linter.unusedVariables false
/-! The whole tree with its internodes does to its leaves what `Model/Forest.lean` does. -/
namespace Verif.Whole
open Verif.Internode (upd upd_same upd_ne)
open Verif.Index (Calm Failed)
open Verif.Tree (Leaf emptyLeaf)
variable {V : Type} {fixed strict : Bool}

/-- What is known about all layers. -/
structure WOk (s : St V) : Prop where
  basic : Forest.Basic s.f
  ok : ∀ L, s.f.made L = true → LOk (L == 0) (s.lay L)
  unused : ∀ L, s.f.up L = false → s.side L = Side.init

theorem onLeaves_plain {l : Lay V} {a : LAct V} {b : Chain.Act V} (h : onLeaves l a = some b) : Forest.plain b = true := by
  cases b with
  | convert x t q =>
    exfalso
    cases a with
    | call => cases h
    | walk => cases h
    | read => cases h
    | enter i => simp only [onLeaves] at h; split at h <;> simp at h
    | step i => simp only [onLeaves] at h; split at h <;> (try split at h) <;> simp at h
    | publish i pos off => simp only [onLeaves] at h; split at h <;> (try split at h) <;> simp at h
    | finish i => simp only [onLeaves] at h; split at h <;> (try split at h) <;> simp at h
    | unlock i => simp only [onLeaves] at h; split at h <;> (try split at h) <;> simp at h
    | release i => simp only [onLeaves] at h; split at h <;> simp at h
    | write => simp [onLeaves] at h
    | update => simp [onLeaves] at h
    | split => simp [onLeaves] at h
    | freeze => simp [onLeaves] at h
    | hold => simp [onLeaves] at h
  | _ => rfl

theorem upd_self {α : Type} (f : Nat → α) (i : Nat) : upd f i (f i) = f := by
  funext j; simp only [upd]; split
  · rename_i e; rw [e]
  · rfl

/-- Every step. -/
theorem WOk.act {s : St V} (h : WOk s) (a : Act V) (hc : ∀ L i, a = .inLayer L (.walk i) → Calm strict (s.side L).ix i)
    (hf : ∀ L i, ¬ Failed ((act fixed strict s a).side L).ix i) :
    WOk (act fixed strict s a) ∧
      (act fixed strict s a).f = match onForest s a with | none => s.f | some b => Forest.act fixed s.f b := by
  cases a with
  | inLayer L a =>
    by_cases hu : s.f.up L = true
    · have hm := h.basic.made L hu
      have G : Good fixed strict (L == 0) (s.lay L) a := by
        refine lact_ok (h.ok L hm) a (fun i e => hc L i (by rw [e])) (fun i => ?_)
        have := hf L i
        simp only [Whole.act, if_pos hu] at this
        rw [show upd s.side L _ L = _ from upd_same _ _ _] at this
        exact this
      have ef : (Whole.act fixed strict s (.inLayer L a)).f = match onForest s (.inLayer L a) with | none => s.f | some b => Forest.act fixed s.f b := by
        simp only [Whole.act, if_pos hu, onForest]
        rw [G.2]
        cases e : onLeaves (s.lay L) a with
        | none =>
          simp only [Option.map_none]
          show ({ s.f with layer := upd s.f.layer L (s.f.layer L), up := fun z => s.f.up z || false } : Forest.St V) = s.f
          simp only [upd_self, Bool.or_false]
        | some b =>
          simp only [Option.map_some, Forest.act]
          rw [if_pos ⟨hu, onLeaves_plain e⟩]
          rfl
      refine ⟨⟨?_, ?_, ?_⟩, ef⟩
      · rw [ef]; split
        · exact h.basic
        · exact h.basic.act _ _
      · intro z hz
        have hz' : s.f.made z = true := by
          simp only [Whole.act, if_pos hu] at hz; exact hz
        simp only [Whole.act, if_pos hu, St.lay]
        by_cases e : z = L
        · subst e
          rw [upd_same, upd_same]; exact G.1
        · rw [upd_ne _ _ _ e, upd_ne _ _ _ e]; exact h.ok z hz'
      · intro z hz
        simp only [Whole.act, if_pos hu, Bool.or_eq_false_iff] at hz ⊢
        have : z ≠ L := by rintro rfl; rw [hu] at hz; cases hz.1
        rw [upd_ne _ _ _ this]; exact h.unused z hz.1
    · simp only [Whole.act, if_neg hu, onForest]
      exact ⟨h, trivial⟩
  | convert L i t d v qs =>
    simp only [Whole.act, onForest]
    cases ho : (s.side L).owns i with
    | none => exact ⟨h, rfl⟩
    | some x =>
      simp only
      by_cases hk : (s.side L).key i = Forest.keyIn (s.f.pre L) d
      · simp only [if_pos hk]
        refine ⟨⟨h.basic.act fixed (.convert L x t d v qs), ?_, ?_⟩, trivial⟩
        · intro z hz
          simp only [Forest.act] at hz
          cases hcf : Forest.conflict s.f L x t d v qs with
          | none =>
            simp only [Forest.act, hcf] at hz ⊢
            exact h.ok z hz
          | some bs =>
            obtain ⟨lv, ev, es, c⟩ := Forest.conflict_conf hcf
            simp only [hcf] at hz
            have hml := h.basic.made L c.up
            simp only [Forest.act, hcf, St.lay]
            by_cases e : z = L
            · subst e
              rw [upd_same]
              exact (h.ok z hml).convert fixed ho t _
            · rw [upd_ne _ _ _ e]
              by_cases hq : z ∈ qs
              · simp only [if_pos hq]
                have : s.f.up z = false := by
                  cases hu : s.f.up z with
                  | false => rfl
                  | true => have := h.basic.made z hu; rw [c.new z hq] at this; cases this
                rw [h.unused z this]
                exact LOk.init _ (c.built (h.basic.align L hml) (List.idxOf_lt_length_iff.2 hq)).start.start
              · simp only [if_neg hq]
                refine h.ok z ?_
                rcases Bool.or_eq_true _ _ ▸ hz with g | g
                · exact g
                · exact absurd (List.contains_iff_mem.1 g) hq
        · intro z hz
          refine h.unused z ?_
          simp only [Forest.act] at hz
          split at hz <;> exact hz
      · simp only [if_neg hk]
        exact ⟨h, trivial⟩

theorem Start.ok {s : St V} (h : Start s) : WOk s := by
  have hs := h.leaves
  refine ⟨⟨(hs.up 0).2 rfl, fun L hl => (hs.made L).2 ((hs.up L).1 hl), ?_, hs.pre, ?_⟩, ?_, fun L _ => h.side L⟩
  · intro L hl
    rw [(hs.made L).1 hl, hs.pre]; exact ⟨0, rfl⟩
  · intro q j hj; rw [hs.job q] at hj; cases hj
  · intro L hl
    rw [(hs.made L).1 hl]
    show LOk _ ⟨s.f.layer 0, s.side 0⟩
    rw [h.side 0]
    exact LOk.init _ hs.root

variable {σ : Nat → St V} {α : Nat → Option (Act V)} {N : Nat}

theorem Exec.ok (E : Exec fixed strict σ α) (C : Clean strict σ α N) : ∀ n, n ≤ N → WOk (σ n)
  | 0, _ => E.start.ok
  | n + 1, hn => by
    have ih := E.ok C n (by omega)
    have e := E.steps n
    cases ha : α n with
    | none => rw [ha] at e; simp only at e; rw [e]; exact ih
    | some a =>
      rw [ha] at e; simp only at e
      rw [e]
      refine (ih.act a ?_ ?_).1
      · intro L i g o r p w x hp hch
        exact C.calm n (by omega) L i (by rw [ha, g]) o r p w x hp hch
      · rintro L i ⟨o, r, hp⟩
        rw [← e] at hp
        exact C.done (n + 1) hn L i o r hp

theorem Exec.leaves_step (E : Exec fixed strict σ α) (C : Clean strict σ α N) {n : Nat} (hn : n < N) :
    leaves σ (n + 1) = match stores σ α n with | none => leaves σ n | some b => Forest.act fixed (leaves σ n) b := by
  have ih := E.ok C n (by omega)
  have e := E.steps n
  unfold leaves stores
  cases ha : α n with
  | none => rw [ha] at e; simp only at e; rw [e]; rfl
  | some a =>
    rw [ha] at e; simp only at e
    have := (ih.act (fixed := fixed) (strict := strict) a (by
      intro L i g o r p w x hp hch
      exact C.calm n hn L i (by rw [ha, g]) o r p w x hp hch) (by
      rintro L i ⟨o, r, hp⟩
      rw [← e] at hp
      exact C.done (n + 1) hn L i o r hp)).2
    rw [← e] at this
    rw [this]; rfl

/-- The leaves up to step `N`, and then nothing happens any more. -/
def upTo (N : Nat) (σ : Nat → St V) (n : Nat) : Forest.St V := leaves σ (min n N)

def storesTo (N : Nat) (σ : Nat → St V) (α : Nat → Option (Act V)) (n : Nat) : Option (Forest.Act V) := if n < N then stores σ α n else none

theorem Exec.forest (E : Exec fixed strict σ α) (C : Clean strict σ α N) : Forest.Exec fixed (upTo N σ) (storesTo N σ α) := by
  refine ⟨by unfold upTo; rw [Nat.zero_min]; exact E.start.leaves, fun n => ?_⟩
  unfold upTo storesTo
  by_cases hn : n < N
  · rw [Nat.min_eq_left (by omega), Nat.min_eq_left (by omega), if_pos hn]
    exact E.leaves_step C hn
  · rw [Nat.min_eq_right (by omega), Nat.min_eq_right (by omega), if_neg hn]

theorem upTo_eq {n : Nat} (hn : n ≤ N) : upTo N σ n = (σ n).f := by unfold upTo leaves; rw [Nat.min_eq_left hn]

theorem map_upTo (d : Spec.Bytes) : ∀ n, n ≤ N → Forest.map (upTo N σ) (storesTo N σ α) d n = map σ α d n
  | 0, _ => rfl
  | n + 1, hn => by
    have ih := map_upTo d n (by omega)
    unfold map at ih ⊢
    simp only [Forest.map]
    rw [ih, upTo_eq (by omega), show storesTo N σ α n = stores σ α n from if_pos (by omega)]
    rfl

theorem releases_upTo (L x : Nat) : ∀ n, n ≤ N → Chain.releases (fun n => (upTo N σ n).layer L) x n = Chain.releases (fun n => (leaves σ n).layer L) x n
  | 0, _ => rfl
  | n + 1, hn => by
    simp only [Chain.releases]
    simp only [releases_upTo L x n (by omega), upTo_eq (show n ≤ N by omega), upTo_eq hn, leaves]
    congr

/-! ## Lookups -/

theorem beside_key {l : Lay V} {main : Bool} (a : LAct V) (i : Nat) (h : l.s.ix.pc i ≠ .idle ∧ ∀ o x, l.s.ix.pc i ≠ .done o x) :
    (beside strict main l a).key i = l.s.key i := by
  cases a with
  | call j k put =>
    simp only [beside]
    by_cases e : i = j
    · subst e
      split
      · rename_i g; exact absurd g h.1
      · rename_i g; exact absurd g (h.2 _ _)
      · rfl
    · split <;> first | rfl | exact upd_ne _ _ _ e
  | walk j => simp only [beside]; split <;> rfl
  | enter j => simp only [beside]; split <;> rfl
  | step j => simp only [beside]; split <;> (repeat' split) <;> rfl
  | finish j => simp only [beside]; split <;> (repeat' split) <;> rfl
  | hold j =>
    simp only [beside]; split
    · split
      · simp only [link]; split <;> rfl
      · rfl
    · rfl
  | _ => rfl

theorem key_act {s : St V} (a : Act V) (L i : Nat) (h : Inside s L i) : ((act fixed strict s a).side L).key i = (s.side L).key i := by
  cases a with
  | inLayer L' a =>
    simp only [act]
    split
    · by_cases e : L = L'
      · subst e
        show (upd s.side L _ L).key i = _
        rw [upd_same]
        exact beside_key a i h
      · show (upd s.side L' _ L).key i = _
        rw [upd_ne _ _ _ e]
    · rfl
  | convert L' j t d v qs =>
    simp only [act]
    split
    · split <;> rfl
    · rfl

theorem Part.key (E : Exec fixed strict σ α) {i L a c b : Nat} {k : Key} {r : Race.Out V} {saw : Bool} (P : Part σ α i L a c b k r saw) :
    ∀ n, a < n → n ≤ c → ((σ n).side L).key i = k := by
  intro n h1 h2
  obtain ⟨j, rfl⟩ := Nat.exists_eq_add_of_le (show a + 1 ≤ n from h1)
  clear h1
  induction j with
  | zero =>
    have e := E.steps a
    rw [P.call] at e
    simp only at e
    have hin := P.inside (a + 1) (by omega) h2
    have fr := P.free
    rw [Nat.add_zero, e] at *
    simp only [act] at *
    by_cases hu : (σ a).f.up L = true
    · simp only [if_pos hu] at *
      rw [upd_same]
      simp only [lact, beside]
      split
      · exact upd_same _ _ _
      · exact upd_same _ _ _
      · rename_i g1 g2
        exact absurd ⟨g1, g2⟩ fr
    · simp only [if_neg hu] at hin
      exact absurd hin fr
  | succ j ih =>
    have e := E.steps (a + 1 + j)
    have ih := ih (by omega)
    rw [show a + 1 + (j + 1) = a + 1 + j + 1 from rfl, e]
    split
    · exact ih
    · rw [key_act _ L i (P.inside _ (by omega) (by omega))]; exact ih

/-- What a lookup does among the leaves. -/
theorem Part.lookup (E : Exec fixed strict σ α) {i L a c b : Nat} {k : Key} {r : Race.Out V} {saw : Bool} (P : Part σ α i L a c b k r saw) :
    ∃ o n, ((σ c).side L).ix.pc i = .look o n ∧ stores σ α c = some (.inLayer L (.start i (((σ c).side L).leaf n) k)) ∧
      ((σ (c + 1)).f.layer L).rd i = .leaf (((σ c).side L).leaf n) (.stable k) := by
  have hk := P.key E c P.lt (Nat.le_refl c)
  have hin := P.inside c P.lt (Nat.le_refl c)
  have hout := P.out
  have e := E.steps c
  rw [P.enter] at e
  simp only at e
  unfold stores
  rw [P.enter]
  rw [e] at hout ⊢
  simp only [act, Option.bind_some, onForest] at hout ⊢
  by_cases hu : (σ c).f.up L = true
  · simp only [if_pos hu] at hout ⊢
    cases hp : ((σ c).side L).ix.pc i with
    | look o n =>
      refine ⟨o, n, rfl, ?_⟩
      cases hr : ((σ c).f.layer L).rd i with
      | idle =>
        simp only [onLeaves, St.lay, hp, hr, lact, raw, Option.map_some, hk]
        exact ⟨trivial, by rw [upd_same]; exact upd_same _ _ _⟩
      | done k' r' w =>
        simp only [onLeaves, St.lay, hp, hr, lact, raw, Option.map_some, hk]
        exact ⟨trivial, by rw [upd_same]; exact upd_same _ _ _⟩
      | _ =>
        exfalso
        apply hout
        unfold Inside
        simp only [upd_same, lact, beside, St.lay, hp, hr]
        exact ⟨by nofun, by nofun⟩
    | adv o r h n =>
      exfalso
      apply hout
      unfold Inside
      simp only [upd_same, lact, beside, St.lay, hp, Side.goto, Side.move]
      exact ⟨by nofun, by nofun⟩
    | _ =>
      exfalso
      apply hout
      unfold Inside
      simp only [upd_same, lact, beside, St.lay, hp]
      unfold Inside at hin; simp only [hp] at hin; exact hin
  · simp only [if_neg hu] at hout
    exact absurd hin hout
end Verif.Whole
