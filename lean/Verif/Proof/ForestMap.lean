import Verif.Proof.ForestProj
set_option linter.unusedSimpArgs false
set_option linter.unusedVariables false
/-!
# The layers of a tree and the ideal map
-/
namespace Verif.Forest
open Verif.Spec
open Verif.Internode (upd upd_same upd_ne)
open Verif.Perm (size get)
open Verif.Tree (Leaf Cell emptyLeaf)
open Verif.Race (Out SlotIs)
open Verif.Cas (In)
open Verif.Chain (freeSlot leafSays upd_if shown shown_cases shown_val freeSlot_iff conv_before written_cases)
variable {V : Type}

/-! ## Byte strings -/

theorem Under.take {p d : Bytes} (h : Under p d) : d.take p.length = p := (List.prefix_iff_eq_take.1 h.1).symm

theorem under_of_take {p d : Bytes} (h : d.take p.length = p) (hl : p.length < d.length) : Under p d :=
  ⟨List.prefix_iff_eq_take.2 h.symm, .inr hl⟩

theorem more_iff {p d : Bytes} (ha : 8 ∣ p.length) : (keyIn p d).hasSuffix = true ↔ p.length + 8 < d.length := by
  rw [(obs_keyIn ha).more, decide_eq_true_iff, List.length_drop]; omega

theorem take_split (d : Bytes) (m n : Nat) : d.take (m + n) = d.take m ++ (d.drop m).take n := List.take_add

/-- The same eight bytes come next. -/
theorem take_of_ikey {p d d' : Bytes} (ha : 8 ∣ p.length) (h : Under p d) (h' : Under p d') (hl : p.length + 8 < d.length)
    (hl' : p.length + 8 < d'.length) (e : (keyIn p d).ikey = (keyIn p d').ikey) :
    d.take (p.length + 8) = d'.take (p.length + 8) := by
  rw [take_split, take_split, h.take, h'.take]
  rw [(obs_keyIn ha).ikey, (obs_keyIn ha).ikey] at e
  rw [take_eq_of_chunk_eq _ _ (by rw [List.length_drop]; omega) (by rw [List.length_drop]; omega) e]

theorem ikey_of_take {p d d' : Bytes} (ha : 8 ∣ p.length) (hl : p.length + 8 < d.length) (hl' : p.length + 8 < d'.length)
    (e : d.take (p.length + 8) = d'.take (p.length + 8)) : (keyIn p d).ikey = (keyIn p d').ikey := by
  rw [take_split, take_split] at e
  have := (List.append_inj e (by rw [List.length_take, List.length_take]; omega)).2
  rw [(obs_keyIn ha).ikey, (obs_keyIn ha).ikey, ← chunk_take _ (by rw [List.length_drop]; omega), this,
    chunk_take _ (by rw [List.length_drop]; omega)]

theorem take_of_le {d d' : Bytes} {m n : Nat} (h : m ≤ n) (e : d.take n = d'.take n) : d.take m = d'.take m := by
  have := congrArg (List.take m) e
  rwa [List.take_take, List.take_take, Nat.min_eq_left h] at this

/-! ## The invariant -/

/-- The map holds what a layer says. -/
def Agrees (m : Option V) (o : Out V) (P : Nat → Prop) : Prop :=
  match o with
  | .value v => m = some v
  | .absent => m = none
  | .descend q => P q
  | .misread => False

theorem Agrees.mono {m : Option V} {o : Out V} {P Q : Nat → Prop} (h : Agrees m o P) (hq : ∀ q, P q → Q q) : Agrees m o Q := by
  cases o <;> first | exact h | exact hq _ h

/-- Keys that a conversion under way is about. -/
def Rel (s : St V) (L x t : Nat) (d : Bytes) : Prop :=
  Under (s.pre L) d ∧ (keyIn (s.pre L) d).hasSuffix = true ∧ ((s.layer L).leaf x).b.ikey t = (keyIn (s.pre L) d).ikey

/-- The layers of a conversion under way. -/
structure Pend (s : St V) (M : Bytes → Option V) (C : Nat → Key → Out V) (L x t q : Nat) (j : Job V) : Prop where
  head : q ∈ j.made
  idle : ∀ z ∈ j.made, s.made z = true ∧ s.up z = false ∧ ∀ y, (s.layer z).hold y = .free
  rel : Rel s L x t j.key
  fresh : M j.key = none
  pre : s.pre q = j.key.take ((s.pre L).length + 8)
  below : ∀ z ∈ j.made, s.pre q <+: s.pre z
  links : ∀ z ∈ j.made, z = q ∨ ∃ P ∈ j.made, (s.pre P).length + 8 = (s.pre z).length ∧ s.pre P <+: s.pre z ∧
    ∀ d, Under (s.pre z) d → C P (keyIn (s.pre P) d) = .descend z
  tells : ∀ z ∈ j.made, ∀ d, Under (s.pre z) d → Agrees (if d = j.key then some j.val else M d) (C z (keyIn (s.pre z) d))
    (fun q' => q' ∈ j.made ∧ s.pre q' = d.take ((s.pre z).length + 8) ∧ (s.pre z).length + 8 < d.length)

structure Inv (s : St V) (M : Bytes → Option V) (C : Nat → Key → Out V) : Prop where
  one : ∀ L d, s.up L = true → Under (s.pre L) d → Agrees (M d) (C L (keyIn (s.pre L) d))
    (fun q => s.up q = true ∧ s.pre q = d.take ((s.pre L).length + 8) ∧ (s.pre L).length + 8 < d.length)
  tree : ∀ L, s.up L = true → L ≠ 0 → ∃ P, s.up P = true ∧ (s.pre P).length + 8 = (s.pre L).length ∧ s.pre P <+: s.pre L ∧
    ∀ d, Under (s.pre L) d → C P (keyIn (s.pre P) d) = .descend L
  pend : ∀ L x lv t q st, s.up L = true → (s.layer L).hold x = .conv lv t q st → ∃ j, s.job q = some j ∧ Pend s M C L x t q j
  sep : ∀ L x lv t q st L' x' lv' t' q' st' j j' z, s.up L = true → s.up L' = true → (s.layer L).hold x = .conv lv t q st →
    (s.layer L').hold x' = .conv lv' t' q' st' → s.job q = some j → s.job q' = some j' → z ∈ j.made → z ∈ j'.made → L = L' ∧ x = x'

section
variable {s : St V} {M : Bytes → Option V} {C : Nat → Key → Out V}

theorem under_sub {p p' d : Bytes} (h : p <+: p') (hl : p.length < p'.length) (hu : Under p' d) : Under p d :=
  ⟨h.trans hu.1, .inr (by
    rcases hu.2 with e | e
    · rw [e] at hl; simp at hl
    · omega)⟩

/-- The bytes that lead to a layer determine it. -/
theorem Inv.same (I : Inv s M C) (hb : Basic s) : ∀ (m L L' : Nat), s.up L = true → s.up L' = true → (s.pre L).length = m →
    s.pre L = s.pre L' → L = L' := by
  intro m
  induction m using Nat.strongRecOn with
  | ind m ih =>
    intro L L' h1 h2 hm he
    by_cases e0 : L = 0
    · by_cases e0' : L' = 0
      · rw [e0, e0']
      · obtain ⟨P, _, hl, _⟩ := I.tree L' h2 e0'
        rw [← he, e0, hb.top] at hl; simp at hl
    · obtain ⟨P, p1, p2, p3, p4⟩ := I.tree L h1 e0
      by_cases e0' : L' = 0
      · rw [he, e0', hb.top] at p2; simp at p2
      · obtain ⟨P', p1', p2', p3', p4'⟩ := I.tree L' h2 e0'
        have hpp : s.pre P = s.pre P' := by
          rw [List.prefix_iff_eq_take.1 p3, List.prefix_iff_eq_take.1 p3', he]
          congr 1; rw [he] at p2; omega
        have := ih (s.pre P).length (by omega) P P' p1 p1' rfl hpp
        subst this
        have hu : Under (s.pre L) (s.pre L ++ [0]) := ⟨List.prefix_append _ _, .inr (by simp)⟩
        have e1 := p4 _ hu
        have e2 := p4' (s.pre L ++ [0]) (by rw [← he]; exact hu)
        rw [e1] at e2
        exact Out.descend.inj e2

/-- Of two layers on the way to a key the upper one leads on. -/
theorem Inv.above (I : Inv s M C) (hb : Basic s) {L : Nat} {d : Bytes} (h1 : s.up L = true) (u1 : Under (s.pre L) d) :
    ∀ (m L' : Nat), s.up L' = true → (s.pre L').length = m → Under (s.pre L') d → (s.pre L).length < (s.pre L').length →
    ∃ q, C L (keyIn (s.pre L) d) = .descend q := by
  intro m
  induction m using Nat.strongRecOn with
  | ind m ih =>
    intro L' h2 hm u2 hlt
    have e0 : L' ≠ 0 := by
      rintro rfl
      rw [hb.top] at hlt; simp at hlt
    obtain ⟨P, p1, p2, p3, p4⟩ := I.tree L' h2 e0
    have up : Under (s.pre P) d := under_sub p3 (by omega) u2
    have a1 := hb.align L (hb.made L h1)
    have a2 := hb.align P (hb.made P p1)
    by_cases hlp : (s.pre L).length < (s.pre P).length
    · exact ih (s.pre P).length (by omega) P p1 rfl up hlp
    · have hll : (s.pre L).length = (s.pre P).length := by omega
      have hpre : s.pre L = s.pre P := by rw [← u1.take, ← up.take, hll]
      have := I.same hb _ L P h1 p1 rfl hpre
      subst this
      exact ⟨L', p4 d u2⟩

theorem Inv.path (I : Inv s M C) (hb : Basic s) {L L' : Nat} {d : Bytes} (h1 : s.up L = true) (h2 : s.up L' = true)
    (u1 : Under (s.pre L) d) (u2 : Under (s.pre L') d) :
    L = L' ∨ (∃ q, C L (keyIn (s.pre L) d) = .descend q) ∨ ∃ q, C L' (keyIn (s.pre L') d) = .descend q := by
  rcases Nat.lt_trichotomy (s.pre L).length (s.pre L').length with h | h | h
  · exact .inr (.inl (I.above hb h1 u1 _ L' h2 rfl u2 h))
  · left
    exact I.same hb _ L L' h1 h2 rfl (by rw [← u1.take, ← u2.take, h])
  · exact .inr (.inr (I.above hb h2 u2 _ L h1 rfl u1 h))

theorem Pend.longer {L x t q : Nat} {j : Job V} (p : Pend s M C L x t q j) (ha : 8 ∣ (s.pre L).length) :
    (s.pre L).length + 8 < j.key.length := (more_iff ha).1 p.rel.2.1

theorem Pend.pre_len {L x t q : Nat} {j : Job V} (p : Pend s M C L x t q j) (ha : 8 ∣ (s.pre L).length) :
    (s.pre q).length = (s.pre L).length + 8 := by
  have := p.longer ha
  rw [p.pre, List.length_take]; omega

/-- Keys below the new layers are keys that the conversion is about. -/
theorem Pend.under {L x t q : Nat} {j : Job V} (p : Pend s M C L x t q j) (ha : 8 ∣ (s.pre L).length) {z : Nat} (hz : z ∈ j.made)
    {d : Bytes} (hu : Under (s.pre z) d) : Rel s L x t d := by
  have h1 := p.longer ha
  have h2 := p.pre_len ha
  have hq := (p.below z hz)
  have hql := hq.length_le
  have hzd : (s.pre z).length < d.length := by
    rcases hu.2 with e | e
    · rw [e] at hql; rw [h2] at hql; simp at hql
    · exact e
  have hld : (s.pre L).length + 8 < d.length := by rw [← h2]; exact Nat.lt_of_le_of_lt hql hzd
  have ht : d.take ((s.pre L).length + 8) = j.key.take ((s.pre L).length + 8) := by
    have := List.prefix_iff_eq_take.1 (hq.trans hu.1)
    rw [h2] at this
    rw [← this, p.pre]
  refine ⟨under_of_take ?_ (by omega), (more_iff ha).2 hld, ?_⟩
  · rw [take_of_le (by omega) ht]; exact p.rel.1.take
  · rw [p.rel.2.2]; exact (ikey_of_take ha hld h1 ht).symm

/-- Keys that the conversion is about are below the first new layer. -/
theorem Pend.rel_take {L x t q : Nat} {j : Job V} (p : Pend s M C L x t q j) (ha : 8 ∣ (s.pre L).length) {d : Bytes}
    (hr : Rel s L x t d) : s.pre q = d.take ((s.pre L).length + 8) ∧ (s.pre L).length + 8 < d.length := by
  have h1 := p.longer ha
  have h2 := (more_iff ha).1 hr.2.1
  refine ⟨?_, h2⟩
  rw [p.pre]
  exact take_of_ikey ha p.rel.1 hr.1 h1 h2 (by rw [← p.rel.2.2, ← hr.2.2])
end

/-! ## Facts about one layer -/

variable {f : Bool} {σ : Nat → St V} {α : Nat → Option (Act V)}

section
variable (h : Exec f σ α) {n L : Nat} (hm : (σ n).made L = true)
include h hm

theorem Exec.quiet {k : Key} {q : Nat} (hc : C σ α L k n = .descend q) (c : Chain.Act V) :
    Chain.written ((σ n).layer L) k c = none := by
  have := (h.proj_exec hm).descend_quiet (h.proj_steps hm) hc c
  rwa [proj_eq hm] at this

theorem Exec.conv_quiet {x t q st : Nat} {lv : NV.W} {k : Key} (e : ((σ n).layer L).hold x = .conv lv t q st)
    (ek : (((σ n).layer L).leaf x).b.ikey t = k.ikey) (hk : k.hasSuffix = true) {a : Chain.Act V} {r : Out V}
    (hw : Chain.written ((σ n).layer L) k a = some r) : a = .hold x ∧ st = 4 ∧ r = .descend q := by
  rw [← proj_eq hm] at e ek hw
  exact (h.proj_exec hm).conv_quiet e ek hk hw

theorem Exec.conv_map {x t q st : Nat} {lv : NV.W} {k : Key} (e : ((σ n).layer L).hold x = .conv lv t q st)
    (ek : (((σ n).layer L).leaf x).b.ikey t = k.ikey) (hk : k.hasSuffix = true) (q' : Nat) : C σ α L k n ≠ .descend q' := by
  rw [← proj_eq hm] at e ek
  exact (h.proj_exec hm).conv_map (h.proj_steps hm) hk e ek q'

theorem Exec.locked_slot {x t : Nat} {lv : NV.W} {k : Key} (e : ((σ n).layer L).hold x = .locked lv)
    (hi : In (((σ n).layer L).leaf x).b.perm t) (h64 : (((σ n).layer L).leaf x).b.klx t = 64)
    (ek : (((σ n).layer L).leaf x).b.ikey t = k.ikey) (hk : k.hasSuffix = true) :
    C σ α L k n = (shown (((σ n).layer L).leaf x).b t k).getD .absent := by
  rw [← proj_eq hm] at e hi h64 ek ⊢
  exact (h.proj_exec hm).locked_slot (h.proj_steps hm) e hi h64 ek hk

theorem Exec.linv : Chain.Inv ((σ n).layer L) := by
  have := (h.proj_exec hm).inv n
  rwa [proj_eq hm] at this
end

/-- A conversion under way keeps others from writing the keys it is about. -/
theorem Exec.pend_quiet (h : Exec f σ α) {n : Nat} (I : Inv (σ n) (fun d => map σ α d n) (fun L k => C σ α L k n))
    {L L' x t q st : Nat} {lv : NV.W} (h' : (σ n).up L' = true) (e : ((σ n).layer L').hold x = .conv lv t q st) {d : Bytes}
    (hr : Rel (σ n) L' x t d) (hu : (σ n).up L = true) (hd : Under ((σ n).pre L) d) {c : Chain.Act V} {r : Out V}
    (hw : Chain.written ((σ n).layer L) (keyIn ((σ n).pre L) d) c = some r) : L = L' ∧ c = .hold x ∧ st = 4 ∧ r = .descend q := by
  have hb := h.basic n
  have hm' := hb.made L' h'
  have hm := hb.made L hu
  rcases I.path hb hu h' hd hr.1 with rfl | ⟨q', hq⟩ | ⟨q', hq⟩
  · exact ⟨rfl, h.conv_quiet hm e hr.2.2 hr.2.1 hw⟩
  · rw [h.quiet hm hq c] at hw; cases hw
  · exact absurd hq (h.conv_map hm' e hr.2.2 hr.2.1 q')

end Verif.Forest
