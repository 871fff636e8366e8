import Verif.Proof.ForestMap
set_option linter.unusedSimpArgs false
set_option linter.unusedVariables false
/-!
# Every step keeps the layers and the ideal map together
-/
namespace Verif.Forest
open Verif.Spec
open Verif.Internode (upd upd_same upd_ne)
open Verif.Perm (size get)
open Verif.Tree (Leaf Cell emptyLeaf)
open Verif.Race (Out SlotIs)
open Verif.Cas (In)
open Verif.Chain (freeSlot leafSays upd_if shown shown_cases shown_val freeSlot_iff conv_before written_cases)
variable {V : Type} {f : Bool} {σ : Nat → St V} {α : Nat → Option (Act V)}

/-- The invariant after `n` steps. -/
def Good (σ : Nat → St V) (α : Nat → Option (Act V)) (n : Nat) : Prop :=
  Inv (σ n) (fun d => map σ α d n) (fun L k => C σ α L k n)

theorem C_still {L : Nat} {k : Key} {n : Nat} (hn : (α n).bind (inner (σ n) L) = none) : C σ α L k (n + 1) = C σ α L k n := by
  unfold C
  have : steps σ α L n = none := by unfold steps; split <;> first | exact hn | rfl
  rw [Chain.contents_step, this]; rfl

theorem map_still {d : Bytes} {n : Nat} (hn : (α n).bind (written (σ n) d) = none) : map σ α d (n + 1) = map σ α d n := by
  show (match (α n).bind (written (σ n) d) with | some v => some v | none => map σ α d n) = _
  rw [hn]

theorem Good.still {n : Nat} (I : Good σ α n) (hs : σ (n + 1) = σ n) (hi : ∀ L, (α n).bind (inner (σ n) L) = none)
    (hw : ∀ d, (α n).bind (written (σ n) d) = none) : Good σ α (n + 1) := by
  unfold Good
  have e1 : (fun d => map σ α d (n + 1)) = fun d => map σ α d n := funext fun d => map_still (hw d)
  have e2 : (fun L k => C σ α L k (n + 1)) = fun L k => C σ α L k n := funext fun L => funext fun k => C_still (hi L)
  rw [e1, e2, hs]
  exact I

theorem mem_opens {s : St V} {L : Nat} {a : Chain.Act V} {z : Nat} : z ∈ opens s L a ↔
    ∃ x lv t q j, a = .hold x ∧ (s.layer L).hold x = .conv lv t q 4 ∧ s.job q = some j ∧ z ∈ j.made := by
  constructor
  · intro h
    unfold opens at h
    split at h
    · split at h
      · split at h
        · rename_i e4
          split at h
          · rename_i j hj
            subst e4
            exact ⟨_, _, _, _, j, rfl, by assumption, hj, h⟩
          · cases h
        · cases h
      · cases h
    · cases h
  · rintro ⟨x, lv, t, q, j, rfl, e, hj, hz⟩
    unfold opens
    simp only [e, hj, if_true]
    exact hz

/-- The last store of a conversion. -/
theorem last_store {s : Chain.St V} {x t q : Nat} {lv : NV.W} (e : s.hold x = .conv lv t q 4) :
    (Chain.act f s (.hold x)).hold x = .locked lv := by
  have : (Chain.act f s (.hold x)).hold = upd s.hold x (Chain.convNext lv t q 4) := by
    show (Chain.hstep s x).hold = _
    unfold Chain.hstep
    rw [e]
  rw [this, upd_same]; rfl

section
variable (h : Exec f σ α) {n L : Nat} {a : Chain.Act V} (ea : α n = some (.inLayer L a)) (hu : (σ n).up L = true) (hp : plain a = true)
include ea hu hp

theorem inner_here : (α n).bind (inner (σ n) L) = some a := by
  rw [ea]; show inner (σ n) L (.inLayer L a) = _
  unfold inner; simp [hu, hp]

omit hu hp in
theorem inner_there {L0 : Nat} (hne : L0 ≠ L) : (α n).bind (inner (σ n) L0) = none := by
  rw [ea]; show inner (σ n) L0 (.inLayer L a) = _
  unfold inner; simp [Ne.symm hne]

theorem written_here (d : Bytes) : (α n).bind (written (σ n) d) = if Under ((σ n).pre L) d then
      match Chain.written ((σ n).layer L) (keyIn ((σ n).pre L) d) a with
      | some (.value v) => some v
      | some (.descend q) =>
        match (σ n).job q with
        | some j => if j.key = d then some j.val else none
        | none => none
      | _ => none
    else none := by
  rw [ea]; show written (σ n) d (.inLayer L a) = _
  unfold written
  by_cases hd : Under ((σ n).pre L) d
  · simp only [hu, hp, hd, and_self, if_true]
    rfl
  · simp only [hd, and_false, if_false]

theorem map_none {d : Bytes} (hw : Under ((σ n).pre L) d → Chain.written ((σ n).layer L) (keyIn ((σ n).pre L) d) a = none) :
    map σ α d (n + 1) = map σ α d n := by
  apply map_still
  rw [written_here ea hu hp]
  split
  · rename_i hd; rw [hw hd]
  · rfl

theorem map_value {d : Bytes} {v : V} (hd : Under ((σ n).pre L) d)
    (hw : Chain.written ((σ n).layer L) (keyIn ((σ n).pre L) d) a = some (.value v)) : map σ α d (n + 1) = some v := by
  show (match (α n).bind (written (σ n) d) with | some v => some v | none => map σ α d n) = _
  rw [written_here ea hu hp, if_pos hd, hw]

theorem map_open {d : Bytes} {q : Nat} {j : Job V} (hd : Under ((σ n).pre L) d)
    (hw : Chain.written ((σ n).layer L) (keyIn ((σ n).pre L) d) a = some (.descend q)) (hj : (σ n).job q = some j) :
    map σ α d (n + 1) = if d = j.key then some j.val else map σ α d n := by
  show (match (α n).bind (written (σ n) d) with | some v => some v | none => map σ α d n) = _
  rw [written_here ea hu hp, if_pos hd, hw]
  simp only [hj]
  by_cases e : j.key = d
  · rw [if_pos e, if_pos e.symm]
  · rw [if_neg e, if_neg (Ne.symm e)]

include h
theorem next_eq : σ (n + 1) = { σ n with layer := upd (σ n).layer L (Chain.act f ((σ n).layer L) a), up := fun z => (σ n).up z || (opens (σ n) L a).contains z } := by
  rw [h.step n, ea]
  show act f (σ n) (.inLayer L a) = _
  unfold act
  simp only [hu, hp, and_self, if_true]

theorem Good.inLayer (I : Good σ α n) : Good σ α (n + 1) := by
  have hb := h.basic n
  have hs := next_eq h ea hu hp
  have hpre : (σ (n + 1)).pre = (σ n).pre := by rw [hs]
  have hmade : (σ (n + 1)).made = (σ n).made := by rw [hs]
  have hjob : (σ (n + 1)).job = (σ n).job := by rw [hs]
  have hup : ∀ z, (σ (n + 1)).up z = true ↔ (σ n).up z = true ∨ z ∈ opens (σ n) L a := by
    intro z; rw [hs]
    show ((σ n).up z || _) = true ↔ _
    rw [Bool.or_eq_true, List.contains_iff_mem]
  have hl0 : ∀ z, z ≠ L → (σ (n + 1)).layer z = (σ n).layer z := by
    intro z hz; rw [hs]; exact upd_ne _ _ _ hz
  have hl1 : (σ (n + 1)).layer L = Chain.act f ((σ n).layer L) a := by rw [hs]; exact upd_same _ _ _
  have hc0 : ∀ z k, z ≠ L → C σ α z k (n + 1) = C σ α z k n := fun z k hz => C_still (inner_there ea hz)
  have hm := hb.made L hu
  have hc1 : ∀ k, C σ α L k (n + 1) = match Chain.written ((σ n).layer L) k a with | some r => r | none => C σ α L k n := by
    intro k; rw [C_step hm, inner_here ea hu hp]
    rfl
  have hc2 : ∀ z k q, (σ n).made z = true → C σ α z k n = .descend q → C σ α z k (n + 1) = .descend q := by
    intro z k q hz hq
    by_cases e : z = L
    · subst e; rw [hc1, h.quiet hz hq a]; exact hq
    · rw [hc0 z k e]; exact hq
  -- what opens
  have hopen : ∀ z, z ∈ opens (σ n) L a → ∃ x lv t q j, a = .hold x ∧ ((σ n).layer L).hold x = .conv lv t q 4 ∧
      (σ n).job q = some j ∧ z ∈ j.made ∧ Pend (σ n) (fun d => map σ α d n) (fun L k => C σ α L k n) L x t q j := by
    intro z hz
    obtain ⟨x, lv, t, q, j, e1, e2, e3, e4⟩ := mem_opens.1 hz
    obtain ⟨j', h1, h2⟩ := I.pend L x lv t q 4 hu e2
    rw [e3] at h1; cases h1
    exact ⟨x, lv, t, q, j, e1, e2, e3, e4, h2⟩
  have hup0 : ∀ z, (σ n).up z = true → (σ (n + 1)).up z = true := fun z hz => (hup z).2 (.inl hz)
  -- conversions after the step were there before
  have hback : ∀ L0 x0 lv0 t0 q0 st0, (σ (n + 1)).up L0 = true → ((σ (n + 1)).layer L0).hold x0 = .conv lv0 t0 q0 st0 →
      (σ n).up L0 = true ∧ ∃ st', ((σ n).layer L0).hold x0 = .conv lv0 t0 q0 st' ∧
        (((σ (n + 1)).layer L0).leaf x0).b.ikey = (((σ n).layer L0).leaf x0).b.ikey := by
    intro L0 x0 lv0 t0 q0 st0 hu0 e0
    have hu0' : (σ n).up L0 = true := by
      rcases (hup L0).1 hu0 with h1 | h1
      · exact h1
      · obtain ⟨x, lv, t, q, j, _, _, _, hz, hP⟩ := hopen L0 h1
        have hid := hP.idle L0 hz
        have : L0 ≠ L := by rintro rfl; rw [hid.2.1] at hu; cases hu
        rw [hl0 L0 this, hid.2.2 x0] at e0; cases e0
    refine ⟨hu0', ?_⟩
    by_cases e : L0 = L
    · subst e
      rw [hl1] at e0 ⊢
      rcases conv_before (h.linv hm) e0 with h1 | ⟨rfl, _⟩
      · exact h1
      · cases hp
    · rw [hl0 L0 e] at e0 ⊢
      exact ⟨st0, e0, rfl⟩
  refine ⟨?_, ?_, ?_, ?_⟩
  · -- one
    intro L0 d hu0 hd
    rw [hpre] at hd ⊢
    show Agrees (map σ α d (n + 1)) (C σ α L0 _ (n + 1)) _
    rcases (hup L0).1 hu0 with hu0' | hz
    · have h1 := I.one L0 d hu0' hd
      have h2 : ∀ q, (σ n).up q = true ∧ (σ n).pre q = d.take (((σ n).pre L0).length + 8) ∧ ((σ n).pre L0).length + 8 < d.length →
          (σ (n + 1)).up q = true ∧ (σ n).pre q = d.take (((σ n).pre L0).length + 8) ∧ ((σ n).pre L0).length + 8 < d.length :=
        fun q hq => ⟨hup0 q hq.1, hq.2⟩
      by_cases e : L0 = L
      · subst e
        rw [hc1]
        cases hw : Chain.written ((σ n).layer L0) (keyIn ((σ n).pre L0) d) a with
        | none =>
          rw [map_none ea hu hp (fun _ => hw)]
          exact h1.mono h2
        | some r =>
          rcases written_cases hw with ⟨v, rfl⟩ | ⟨x, lv, t, q, rfl, e2, e3, e4, rfl⟩
          · exact map_value ea hu hp hd hw
          · obtain ⟨j, hj, hP⟩ := I.pend L0 x lv t q 4 hu e2
            have := hP.rel_take (hb.align L0 hm) ⟨hd, e4, e3⟩
            exact ⟨(hup q).2 (.inr (mem_opens.2 ⟨x, lv, t, q, j, rfl, e2, hj, hP.head⟩)), this⟩
      · rw [hc0 L0 _ e]
        by_cases hw : Under ((σ n).pre L) d → Chain.written ((σ n).layer L) (keyIn ((σ n).pre L) d) a = none
        · rw [map_none ea hu hp hw]
          exact h1.mono h2
        · rw [Classical.not_imp] at hw
          obtain ⟨hdL, hw⟩ := hw
          rcases Inv.path I hb hu0' hu hd hdL with e' | ⟨q, hq⟩ | ⟨q, hq⟩
          · exact absurd e' e
          · have hq : C σ α L0 (keyIn ((σ n).pre L0) d) n = .descend q := hq
            rw [hq] at h1 ⊢
            exact h2 q h1
          · exact absurd (h.quiet hm hq a) hw
    · obtain ⟨x, lv, t, q, j, rfl, e2, hj, hzj, hP⟩ := hopen L0 hz
      have hid := hP.idle L0 hzj
      have hne : L0 ≠ L := by rintro rfl; rw [hid.2.1] at hu; cases hu
      have hr := hP.under (hb.align L hm) hzj hd
      have hw : Chain.written ((σ n).layer L) (keyIn ((σ n).pre L) d) (.hold x) = some (.descend q) := by
        unfold Chain.written
        simp only [e2]
        rw [if_pos ⟨trivial, hr.2.2, hr.2.1⟩]
      rw [hc0 L0 _ hne, map_open ea hu hp hr.1 hw hj]
      refine (hP.tells L0 hzj d hd).mono ?_
      rintro q' ⟨h1, h2⟩
      exact ⟨(hup q').2 (.inr (mem_opens.2 ⟨x, lv, t, q, j, rfl, e2, hj, h1⟩)), h2⟩
  · -- tree
    intro L0 hu0 hn0
    rw [hpre]
    rcases (hup L0).1 hu0 with hu0' | hz
    · obtain ⟨P, p1, p2, p3, p4⟩ := I.tree L0 hu0' hn0
      exact ⟨P, hup0 P p1, p2, p3, fun d hd => hc2 P _ _ (hb.made P p1) (p4 d hd)⟩
    · obtain ⟨x, lv, t, q, j, rfl, e2, hj, hzj, hP⟩ := hopen L0 hz
      rcases hP.links L0 hzj with rfl | ⟨P, p1, p2, p3, p4⟩
      · have hlen := hP.pre_len (hb.align L hm)
        refine ⟨L, hup0 L hu, hlen.symm, ?_, ?_⟩
        · rw [hP.pre]
          have := hP.rel.1.take
          rw [List.prefix_iff_eq_take, List.take_take, Nat.min_eq_left (by omega)]
          exact this.symm
        · intro d hd
          have hr := hP.under (hb.align L hm) hP.head hd
          show C σ α L _ (n + 1) = _
          rw [hc1]
          unfold Chain.written
          simp only [e2]
          rw [if_pos ⟨trivial, hr.2.2, hr.2.1⟩]
      · exact ⟨P, (hup P).2 (.inr (mem_opens.2 ⟨x, lv, t, q, j, rfl, e2, hj, p1⟩)), p2, p3,
          fun d hd => hc2 P _ _ (hP.idle P p1).1 (p4 d hd)⟩
  · -- pend
    intro L0 x0 lv0 t0 q0 st0 hu0 e0
    obtain ⟨hu0', st', e0', hik⟩ := hback L0 x0 lv0 t0 q0 st0 hu0 e0
    obtain ⟨j, hj, hP⟩ := I.pend L0 x0 lv0 t0 q0 st' hu0' e0'
    have ha0 := hb.align L0 (hb.made L0 hu0')
    have hlast : ¬ (L = L0 ∧ a = .hold x0 ∧ st' = 4) := by
      rintro ⟨rfl, rfl, rfl⟩
      rw [hl1, last_store e0'] at e0; cases e0
    have hmap : ∀ d, Rel (σ n) L0 x0 t0 d → map σ α d (n + 1) = map σ α d n := by
      intro d hr
      apply map_none ea hu hp
      intro hd
      cases hw : Chain.written ((σ n).layer L) (keyIn ((σ n).pre L) d) a with
      | none => rfl
      | some r =>
        obtain ⟨h1, h2, h3, _⟩ := h.pend_quiet I hu0' e0' hr hu hd hw
        exact absurd ⟨h1, h2, h3⟩ hlast
    have hidle : ∀ z ∈ j.made, z ≠ L := by
      rintro z hz rfl
      rw [(hP.idle z hz).2.1] at hu; cases hu
    have hrel : ∀ d, Rel (σ (n + 1)) L0 x0 t0 d ↔ Rel (σ n) L0 x0 t0 d := by
      intro d; unfold Rel; rw [hpre, hik]
    refine ⟨j, by rw [hjob]; exact hj, hP.head, ?_, (hrel _).2 hP.rel, ?_, by rw [hpre]; exact hP.pre, by rw [hpre]; exact hP.below, ?_, ?_⟩
    · intro z hz
      obtain ⟨h1, h2, h3⟩ := hP.idle z hz
      refine ⟨by rw [hmade]; exact h1, ?_, by rw [hl0 z (hidle z hz)]; exact h3⟩
      cases hh : (σ (n + 1)).up z with
      | false => rfl
      | true =>
        rcases (hup z).1 hh with h4 | h4
        · rw [h2] at h4; cases h4
        · obtain ⟨x, lv, t, q, j', rfl, e2, hj', hzj, hP'⟩ := hopen z h4
          obtain ⟨rfl, rfl⟩ := I.sep L x lv t q 4 L0 x0 lv0 t0 q0 st' j' j z hu hu0' e2 e0' hj' hj hzj hz
          rw [e2] at e0'; cases e0'
          exact absurd ⟨rfl, rfl, rfl⟩ hlast
    · exact (hmap j.key hP.rel).trans hP.fresh
    · intro z hz
      rw [hpre]
      rcases hP.links z hz with rfl | ⟨P, p1, p2, p3, p4⟩
      · exact .inl rfl
      · exact .inr ⟨P, p1, p2, p3, fun d hd => hc2 P _ _ (hP.idle P p1).1 (p4 d hd)⟩
    · intro z hz d hd
      rw [hpre] at hd ⊢
      have hr := hP.under ha0 hz hd
      show Agrees (if d = j.key then some j.val else map σ α d (n + 1)) (C σ α z _ (n + 1)) _
      rw [hmap d hr, hc0 z _ (hidle z hz)]
      exact hP.tells z hz d hd
  · -- sep
    intro L1 x1 lv1 t1 q1 st1 L2 x2 lv2 t2 q2 st2 j1 j2 z hu1 hu2 e1 e2 hj1 hj2 hz1 hz2
    obtain ⟨hu1', st1', e1', _⟩ := hback L1 x1 lv1 t1 q1 st1 hu1 e1
    obtain ⟨hu2', st2', e2', _⟩ := hback L2 x2 lv2 t2 q2 st2 hu2 e2
    rw [hjob] at hj1 hj2
    exact I.sep L1 x1 lv1 t1 q1 st1' L2 x2 lv2 t2 q2 st2' j1 j2 z hu1' hu2' e1' e2' hj1 hj2 hz1 hz2
end

end Verif.Forest
