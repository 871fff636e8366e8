import Verif.Proof.ForestLeaf
import Mathlib.Data.Nat.Find
set_option linter.unusedSimpArgs false
set_option linter.unusedVariables false
/-!
# The executions of the layers of a tree
-/
namespace Verif.Forest
open Verif.Spec
open Verif.Internode (upd upd_same upd_ne)
open Verif.Perm (size get)
open Verif.Tree (Leaf Cell emptyLeaf)
open Verif.Race (Out)
open Verif.Chain (freeSlot leafSays upd_if)
variable {V : Type}

/-- A tree as it is made: one empty layer. -/
structure Start (s : St V) : Prop where
  root : Chain.Start (s.layer 0)
  empty : size 5 ((s.layer 0).leaf 1).b.perm = 0
  made : ∀ z, s.made z = true ↔ z = 0
  up : ∀ z, s.up z = true ↔ z = 0
  pre : s.pre 0 = []
  job : ∀ q, s.job q = none

/-- An execution: any interleaving of lookups, inserts, splits and conversions in all layers. -/
def Exec (fixed : Bool) (σ : Nat → St V) (α : Nat → Option (Act V)) : Prop := Start (σ 0) ∧ Steps fixed σ α

/-- What `conflict` has checked and made. -/
structure Conf (s : St V) (L x t : Nat) (d : Bytes) (v : V) (qs : List Nat) (bs : List (Leaf V)) (lv : NV.W) (ev : V) (es : Bytes) : Prop where
  hold : (s.layer L).hold x = .locked lv
  cell : ((s.layer L).leaf x).b.cell t = .val ev
  ksuf : ((s.layer L).leaf x).b.ksuf t = some es
  up : s.up L = true
  under : Under (s.pre L) d
  pub : freeSlot ((s.layer L).leaf x).b.perm t = false
  klx : ((s.layer L).leaf x).b.klx t = 64
  ikey : ((s.layer L).leaf x).b.ikey t = (keyIn (s.pre L) d).ikey
  more : (keyIn (s.pre L) d).hasSuffix = true
  ne : es ≠ (keyIn (s.pre L) d).suffix
  new : ∀ z ∈ qs, s.made z = false
  nodup : qs.Nodup
  some : qs ≠ []
  leaves : bs = leavesFor (Key.mk' es) ev (keyIn (s.pre L) d).shift v qs
  len : bs.length = qs.length

theorem conflict_conf {s : St V} {L x t : Nat} {d : Bytes} {v : V} {qs : List Nat} {bs : List (Leaf V)}
    (h : conflict s L x t d v qs = some bs) : ∃ lv ev es, Conf s L x t d v qs bs lv ev es := by
  unfold conflict at h
  simp only at h
  split at h
  · rename_i lv ev es e1 e2 e3
    split at h
    · rename_i hc
      obtain ⟨c1, c2, c3, c4, c5, c6, c7, c8, c9, c10, c11⟩ := hc
      cases h
      exact ⟨lv, ev, es, e1, e2, e3, c1, c2, c3, c4, c5, c6, c7, c8, c9, c10, rfl, c11⟩
    · cases h
  · cases h

/-- The new layers: `w` is what is left of the new key below the slot. -/
structure Built (qs : List Nat) (bs : List (Leaf V)) (es w : Bytes) (ev v : V) (i : Nat) : Prop where
  start : LeafStart (bs.getD i emptyLeaf)
  tells : ∀ k r, Obs k r → leafSays (bs.getD i emptyLeaf) k = layerSays qs es w ev v i r
  common : es.take (8 * i) = w.take (8 * i)
  long : i ≠ 0 → 8 * i < es.length ∧ 8 * i < w.length

section
variable {s : St V} {L x t : Nat} {d : Bytes} {v : V} {qs : List Nat} {bs : List (Leaf V)} {lv : NV.W} {ev : V} {es : Bytes}

theorem Conf.suffix (hc : Conf s L x t d v qs bs lv ev es) (ha : 8 ∣ (s.pre L).length) :
    (keyIn (s.pre L) d).suffix = d.drop ((s.pre L).length + 8) := by
  rw [(obs_keyIn ha).suffix, List.drop_drop]

theorem Conf.longer (hc : Conf s L x t d v qs bs lv ev es) (ha : 8 ∣ (s.pre L).length) : (s.pre L).length + 8 < d.length := by
  have h1 := hc.more
  rw [(obs_keyIn ha).more, decide_eq_true_iff, List.length_drop] at h1
  omega

theorem Conf.built (hc : Conf s L x t d v qs bs lv ev es) (ha : 8 ∣ (s.pre L).length) {i : Nat} (hi : i < qs.length) :
    Built qs bs es (d.drop ((s.pre L).length + 8)) ev v i := by
  have hk := (keyIn_at (s.pre L) d).shift.sees
  have e1 : d.drop (8 * ((s.pre L).length / 8 + 1)) = d.drop ((s.pre L).length + 8) := by congr 1; omega
  have := leaves_spec ev v qs (Key.mk' es) (keyIn (s.pre L) d).shift es d 0 ((s.pre L).length / 8 + 1) (Key.mk'_sees es) hk
    (by rw [e1, Nat.mul_zero, List.drop_zero, ← hc.suffix ha]; exact hc.ne) (by rw [← hc.leaves]; exact hc.len) i hi
  rw [e1, Nat.mul_zero, List.drop_zero, ← hc.leaves] at this
  obtain ⟨b, h1, h2, h3, h4, h5⟩ := this
  have hb : bs.getD i emptyLeaf = b := by rw [List.getD_eq_getElem?_getD, h1]; rfl
  exact ⟨by rw [hb]; exact h2, by rw [hb]; exact h3, h4, h5⟩

/-- The bytes that lead to the new layer at position `i`. -/
theorem Conf.pre_len (hc : Conf s L x t d v qs bs lv ev es) (ha : 8 ∣ (s.pre L).length) {i : Nat} (hi : i < qs.length) :
    (s.pre L).length + 8 * (i + 1) < d.length := by
  have h1 := hc.longer ha
  have h2 := (hc.built ha hi).long
  rw [List.length_drop] at h2
  by_cases h0 : i = 0
  · subst h0; omega
  · have := (h2 h0).2; omega
end

/-- What a step does inside layer `L`. -/
def inner (s : St V) (L : Nat) : Act V → Option (Chain.Act V)
  | .inLayer L' a => if L' = L ∧ s.up L' = true ∧ plain a = true then some a else none
  | .convert L' x t d v qs => if L' = L ∧ (conflict s L' x t d v qs).isSome then some (.convert x t (qs.headD 0)) else none

theorem inner_up {s : St V} {L : Nat} {a : Act V} {c : Chain.Act V} (h : inner s L a = some c) : s.up L = true := by
  cases a with
  | inLayer L' a =>
    unfold inner at h; simp only at h
    split at h
    · rename_i hc; rw [← hc.1]; exact hc.2.1
    · cases h
  | convert L' x t d v qs =>
    unfold inner at h; simp only at h
    split at h
    · rename_i hc
      obtain ⟨bs, hb⟩ := Option.isSome_iff_exists.1 hc.2
      obtain ⟨lv, ev, es, hcf⟩ := conflict_conf hb
      rw [← hc.1]; exact hcf.up
    · cases h

theorem layer_act {f : Bool} {s : St V} (a : Act V) {L : Nat} (hm : s.made L = true) :
    (act f s a).layer L = match inner s L a with | none => s.layer L | some c => Chain.act f (s.layer L) c := by
  cases a with
  | inLayer L' a =>
    unfold act inner; simp only
    by_cases hc : s.up L' = true ∧ plain a = true
    · simp only [hc, and_self, if_true, and_true]
      show upd s.layer L' _ L = _
      by_cases e : L' = L
      · subst e; simp only [if_true]; exact upd_same _ _ _
      · simp only [e, if_false]; exact upd_ne _ _ _ (Ne.symm e)
    · have : ¬ (L' = L ∧ s.up L' = true ∧ plain a = true) := fun h => hc h.2
      simp only [if_neg hc, if_neg this]
  | convert L' x t d v qs =>
    unfold act inner; simp only
    cases hcf : conflict s L' x t d v qs with
    | none => simp
    | some bs =>
      obtain ⟨lv, ev, es, hc⟩ := conflict_conf hcf
      simp only [Option.isSome_some, and_true]
      show upd _ L' _ L = _
      by_cases e : L' = L
      · subst e; simp only [if_true]; exact upd_same _ _ _
      · simp only [e, if_false]
        rw [upd_ne _ _ _ (Ne.symm e)]
        have : L ∉ qs := fun hh => by rw [hc.new L hh] at hm; cases hm
        simp only [if_neg this]

theorem made_act {f : Bool} {s : St V} (a : Act V) {L : Nat} (hm : s.made L = true) : (act f s a).made L = true := by
  cases a with
  | inLayer L' a => unfold act; simp only; split <;> exact hm
  | convert L' x t d v qs =>
    unfold act; simp only
    split
    · show (s.made L || _) = true
      rw [hm]; rfl
    · exact hm

theorem pre_act {f : Bool} {s : St V} (a : Act V) {L : Nat} (hm : s.made L = true) : (act f s a).pre L = s.pre L := by
  cases a with
  | inLayer L' a => unfold act; simp only; split <;> rfl
  | convert L' x t d v qs =>
    unfold act; simp only
    split
    · rename_i bs hcf
      obtain ⟨lv, ev, es, hc⟩ := conflict_conf hcf
      have : L ∉ qs := fun hh => by rw [hc.new L hh] at hm; cases hm
      simp only [if_neg this]
    · rfl

theorem up_act {f : Bool} {s : St V} (a : Act V) {L : Nat} (hm : s.up L = true) : (act f s a).up L = true := by
  cases a with
  | inLayer L' a =>
    unfold act; simp only; split
    · show (s.up L || _) = true
      rw [hm]; rfl
    · exact hm
  | convert L' x t d v qs => unfold act; simp only; split <;> exact hm

/-- What holds of every layer. -/
structure Basic (s : St V) : Prop where
  root : s.up 0 = true
  made : ∀ L, s.up L = true → s.made L = true
  align : ∀ L, s.made L = true → 8 ∣ (s.pre L).length
  top : s.pre 0 = []
  jobs : ∀ q j, s.job q = some j → ∀ z ∈ j.made, s.made z = true

theorem opens_made {s : St V} (hb : Basic s) {L : Nat} {a : Chain.Act V} {z : Nat} (h : z ∈ opens s L a) : s.made z = true := by
  unfold opens at h
  split at h
  · split at h
    · split at h
      · split at h
        · rename_i j hj
          exact hb.jobs _ j hj z h
        · cases h
      · cases h
    · cases h
  · cases h

theorem Basic.act {s : St V} (hb : Basic s) (f : Bool) (a : Act V) : Basic (act f s a) := by
  refine ⟨up_act a hb.root, ?_, ?_, by rw [pre_act a (hb.made 0 hb.root)]; exact hb.top, ?_⟩
  · intro L hu
    cases a with
    | inLayer L' a =>
      unfold Forest.act at hu ⊢; simp only at hu ⊢
      split at hu
      · rename_i hc
        rw [if_pos hc]
        rcases Bool.or_eq_true _ _ ▸ hu with h | h
        · exact hb.made L h
        · exact opens_made hb (List.contains_iff_mem.1 h)
      · rename_i hc
        rw [if_neg hc]
        exact hb.made L hu
    | convert L' x t d v qs =>
      refine made_act _ (hb.made L ?_)
      unfold Forest.act at hu; simp only at hu
      split at hu <;> exact hu
  · intro L hm
    by_cases h0 : s.made L = true
    · rw [pre_act a h0]; exact hb.align L h0
    · cases a with
      | inLayer L' a => unfold Forest.act at hm; simp only at hm; split at hm <;> exact absurd hm h0
      | convert L' x t d v qs =>
        unfold Forest.act at hm ⊢; simp only at hm ⊢
        split at hm
        · rename_i bs hcf
          obtain ⟨lv, ev, es, hc⟩ := conflict_conf hcf
          rcases Bool.or_eq_true _ _ ▸ hm with h | h
          · exact absurd h h0
          · have hz : L ∈ qs := List.contains_iff_mem.1 h
            simp only [hcf, if_pos hz]
            have ha := hb.align L' (hb.made L' hc.up)
            have := hc.pre_len ha (List.idxOf_lt_length_iff.2 hz)
            rw [List.length_take, Nat.min_eq_left (by omega)]
            omega
        · exact absurd hm h0
  · intro q j hj z hz
    cases a with
    | inLayer L' a =>
      refine made_act _ (hb.jobs q j ?_ z hz)
      unfold Forest.act at hj; simp only at hj; split at hj <;> exact hj
    | convert L' x t d v qs =>
      unfold Forest.act at hj ⊢; simp only at hj ⊢
      split at hj
      · rename_i bs hcf
        simp only [hcf]
        have hj : upd s.job _ _ q = some j := hj
        rw [upd_if] at hj
        split at hj
        · cases hj
          show (s.made z || qs.contains z) = true
          rw [List.contains_iff_mem.2 hz, Bool.or_true]
        · show (s.made z || _) = true
          rw [hb.jobs q j hj z hz]; rfl
      · exact hb.jobs q j hj z hz

variable {f : Bool} {σ : Nat → St V} {α : Nat → Option (Act V)}

theorem Exec.step (h : Exec f σ α) (n : Nat) : σ (n + 1) = match α n with | none => σ n | some a => act f (σ n) a := h.2 n

/-- An invariant of steps is an invariant of executions. -/
theorem Exec.keep (h : Exec f σ α) {P : St V → Prop} (hp : ∀ s a, Basic s → P s → P (act f s a)) (hb : ∀ n, Basic (σ n)) {m n : Nat} (hmn : m ≤ n)
    (h0 : P (σ m)) : P (σ n) := by
  obtain ⟨j, rfl⟩ := Nat.exists_eq_add_of_le hmn
  clear hmn
  induction j with
  | zero => exact h0
  | succ j ih =>
    have := h.step (m + j)
    rw [show m + (j + 1) = m + j + 1 from rfl, this]
    split
    · exact ih
    · exact hp _ _ (hb _) ih

theorem Exec.basic (h : Exec f σ α) (n : Nat) : Basic (σ n) := by
  induction n with
  | zero =>
    have hs := h.1
    refine ⟨(hs.up 0).2 rfl, fun L hl => (hs.made L).2 ((hs.up L).1 hl), ?_, hs.pre, ?_⟩
    · intro L hl
      rw [(hs.made L).1 hl, hs.pre]; exact ⟨0, rfl⟩
    · intro q j hj; rw [hs.job q] at hj; cases hj
  | succ n ih =>
    rw [h.step n]
    split
    · exact ih
    · exact ih.act f _

theorem Exec.made_mono (h : Exec f σ α) {m n L : Nat} (hmn : m ≤ n) (hm : (σ m).made L = true) : (σ n).made L = true :=
  h.keep (P := fun s => s.made L = true) (fun s a _ hs => made_act a hs) h.basic hmn hm

theorem Exec.up_mono (h : Exec f σ α) {m n L : Nat} (hmn : m ≤ n) (hm : (σ m).up L = true) : (σ n).up L = true :=
  h.keep (P := fun s => s.up L = true) (fun s a _ hs => up_act a hs) h.basic hmn hm

theorem Exec.pre_mono (h : Exec f σ α) {m n L : Nat} (hmn : m ≤ n) (hm : (σ m).made L = true) : (σ n).pre L = (σ m).pre L :=
  (h.keep (P := fun s => s.made L = true ∧ s.pre L = (σ m).pre L)
    (fun s a _ hs => ⟨made_act a hs.1, by rw [pre_act a hs.1]; exact hs.2⟩) h.basic hmn ⟨hm, rfl⟩).2

/-! ## Projections -/

open Classical in
/-- When a layer was made. -/
noncomputable def born (σ : Nat → St V) (L : Nat) : Nat :=
  if h : ∃ n, (σ n).made L = true then Nat.find h else 0

theorem born_made {L n : Nat} (hm : (σ n).made L = true) : (σ (born σ L)).made L = true := by
  classical
  unfold born
  rw [dif_pos ⟨n, hm⟩]
  exact Nat.find_spec (p := fun n => (σ n).made L = true) ⟨n, hm⟩

theorem born_le {L n : Nat} (hm : (σ n).made L = true) : born σ L ≤ n := by
  classical
  unfold born
  rw [dif_pos ⟨n, hm⟩]
  exact Nat.find_min' (p := fun n => (σ n).made L = true) ⟨n, hm⟩ hm

theorem born_not {L m : Nat} (hm : m < born σ L) : (σ m).made L = false := by
  cases e : (σ m).made L with
  | false => rfl
  | true => have := born_le e; omega

/-- A layer as an execution of its own; before the layer is made it pauses. -/
noncomputable def proj (σ : Nat → St V) (L n : Nat) : Chain.St V := (σ (max (born σ L) n)).layer L

/-- The steps of a layer. -/
noncomputable def steps (σ : Nat → St V) (α : Nat → Option (Act V)) (L n : Nat) : Option (Chain.Act V) :=
  if born σ L ≤ n then (α n).bind (inner (σ n) L) else none

theorem proj_eq {L n : Nat} (hm : (σ n).made L = true) : proj σ L n = (σ n).layer L := by
  unfold proj; rw [Nat.max_eq_right (born_le hm)]

theorem steps_eq {L n : Nat} (hm : (σ n).made L = true) : steps σ α L n = (α n).bind (inner (σ n) L) := by
  unfold steps; rw [if_pos (born_le hm)]

theorem Exec.proj_steps (h : Exec f σ α) {L n0 : Nat} (hm : (σ n0).made L = true) : Chain.Steps f (proj σ L) (steps σ α L) := by
  intro n
  unfold steps
  by_cases hb : born σ L ≤ n
  · rw [if_pos hb]
    have hmn := h.made_mono hb (born_made hm)
    have hmn' := h.made_mono (Nat.le_succ n) hmn
    rw [proj_eq hmn, proj_eq hmn', h.step n]
    cases α n with
    | none => rfl
    | some a => exact layer_act a hmn
  · rw [if_neg hb]
    unfold proj
    rw [Nat.max_eq_left (by omega), Nat.max_eq_left (by omega)]

theorem Exec.born_start (h : Exec f σ α) {L n0 : Nat} (hm : (σ n0).made L = true) : Chain.Start ((σ (born σ L)).layer L) := by
  have h1 := born_made hm
  have h2 := fun m => born_not (σ := σ) (L := L) (m := m)
  generalize born σ L = c at *
  cases c with
  | zero =>
    have := (h.1.made L).1 h1
    subst this; exact h.1.root
  | succ c =>
    have hn := h2 c (by omega)
    rw [h.step c] at h1 ⊢
    cases ea : α c with
    | none => rw [ea] at h1; rw [hn] at h1; cases h1
    | some a =>
      rw [ea] at h1
      simp only at h1 ⊢
      cases a with
      | inLayer L' a => unfold act at h1; simp only at h1; split at h1 <;> (have h1 : (σ c).made L = true := h1; rw [hn] at h1; cases h1)
      | convert L' x t d v qs =>
        unfold act at h1 ⊢; simp only at h1 ⊢
        cases hcf : conflict (σ c) L' x t d v qs with
        | none => rw [hcf] at h1; have h1 : (σ c).made L = true := h1; rw [hn] at h1; cases h1
        | some bs =>
          rw [hcf] at h1
          have h1 : ((σ c).made L || qs.contains L) = true := h1
          rw [hn, Bool.false_or] at h1
          have hz : L ∈ qs := List.contains_iff_mem.1 h1
          obtain ⟨lv, ev, es, hc⟩ := conflict_conf hcf
          have hb := h.basic c
          have hml := hb.made L' hc.up
          have hne : L ≠ L' := by rintro rfl; rw [hn] at hml; cases hml
          dsimp only
          show Chain.Start (upd _ L' _ L)
          rw [upd_ne _ _ _ hne]
          simp only [if_pos hz]
          exact (hc.built (hb.align L' hml) (List.idxOf_lt_length_iff.2 hz)).start.start

theorem Exec.proj_exec (h : Exec f σ α) {L n0 : Nat} (hm : (σ n0).made L = true) : Chain.Exec f (proj σ L) := by
  refine ⟨?_, fun n => ?_⟩
  · unfold proj; rw [Nat.max_eq_left (Nat.zero_le _)]; exact h.born_start hm
  · have := h.proj_steps hm n
    rw [this]
    split
    · exact .inl rfl
    · rename_i a _; exact .inr ⟨a, rfl⟩

/-- What layer `L` says about a key. -/
noncomputable def C (σ : Nat → St V) (α : Nat → Option (Act V)) (L : Nat) (k : Key) (n : Nat) : Out V :=
  Chain.contents (proj σ L) (steps σ α L) k n

theorem C_step {L : Nat} {k : Key} {n : Nat} (hm : (σ n).made L = true) :
    C σ α L k (n + 1) = match (α n).bind (inner (σ n) L) with
      | none => C σ α L k n
      | some c => match Chain.written ((σ n).layer L) k c with | some r => r | none => C σ α L k n := by
  unfold C
  rw [Chain.contents_step, steps_eq hm, proj_eq hm]
  cases (α n).bind (inner (σ n) L) <;> rfl

/-- Until it is made and used, a layer says what its first leaf says. -/
theorem C_born {L : Nat} {k : Key} {n : Nat} (hn : n ≤ born σ L) :
    C σ α L k n = leafSays (((σ (born σ L)).layer L).leaf 1).b k := by
  induction n with
  | zero =>
    unfold C Chain.contents proj
    rw [Nat.max_eq_left (Nat.zero_le _)]
  | succ n ih =>
    rw [← ih (by omega)]
    unfold C
    rw [Chain.contents_step]
    unfold steps
    rw [if_neg (by omega)]; rfl

end Verif.Forest
