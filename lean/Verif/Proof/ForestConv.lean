import Verif.Proof.ForestStep
set_option linter.unusedSimpArgs false
set_option linter.unusedVariables false
/-!
# The beginning of a conversion keeps the layers and the ideal map together
-/
namespace Verif.Forest
open Verif.Spec
open Verif.Internode (upd upd_same upd_ne)
open Verif.Perm (size get)
open Verif.Tree (Leaf Cell emptyLeaf)
open Verif.Race (Out SlotIs)
open Verif.Cas (In)
open Verif.Chain (freeSlot leafSays upd_if shown shown_cases shown_val freeSlot_iff conv_before written_cases)
variable {V : Type} {f : Bool} {σ : Nat → St V} {α : Nat → Option (Act V)}

theorem eq_iff_drop {a b : Bytes} {m : Nat} (h : a.take m = b.take m) : a = b ↔ a.drop m = b.drop m := by
  refine ⟨fun e => by rw [e], fun e => ?_⟩
  rw [← List.take_append_drop m a, ← List.take_append_drop m b, h, e]

theorem take_drop_eq {a b : Bytes} {m n : Nat} (h : a.take (m + n) = b.take (m + n)) (hl : m ≤ a.length) (hl' : m ≤ b.length) :
    (a.drop m).take n = (b.drop m).take n := by
  rw [take_split, take_split] at h
  exact (List.append_inj h (by rw [List.length_take, List.length_take]; omega)).2

/-- The new layers say about what is left of a key what the map says. -/
theorem layer_tells {qs : List Nat} {es w u : Bytes} {ev v : V} {i : Nat} (hne : es ≠ w) (h1 : es.take (8 * i) = w.take (8 * i))
    (h2 : u.take (8 * i) = w.take (8 * i)) (hu : 8 * i ≤ u.length)
    (h3 : i + 1 < qs.length → es.take (8 * (i + 1)) = w.take (8 * (i + 1)) ∧ 8 * (i + 1) < es.length ∧ 8 * (i + 1) < w.length) :
    Agrees (if u = w then some v else if u = es then some ev else none) (layerSays qs es w ev v i (u.drop (8 * i)))
      (fun q => qs[i + 1]? = some q ∧ u.take (8 * (i + 1)) = w.take (8 * (i + 1)) ∧ 8 * (i + 1) < u.length) := by
  have e1 := eq_iff_drop h2
  have e2 := eq_iff_drop (h2.trans h1.symm)
  unfold layerSays
  cases hq : qs[i + 1]? with
  | none =>
    simp only
    by_cases c1 : u.drop (8 * i) = es.drop (8 * i)
    · rw [if_pos c1]
      have := e2.2 c1
      subst this
      show (if u = w then _ else _) = _
      rw [if_neg hne, if_pos rfl]
    · rw [if_neg c1]
      by_cases c2 : u.drop (8 * i) = w.drop (8 * i)
      · rw [if_pos c2]
        show (if u = w then _ else _) = _
        rw [if_pos (e1.2 c2)]
      · rw [if_neg c2]
        show (if u = w then _ else _) = _
        rw [if_neg (fun e => c2 (e1.1 e)), if_neg (fun e => c1 (e2.1 e))]
  | some q =>
    obtain ⟨g1, g2, g3⟩ := h3 ((List.getElem?_eq_some_iff.1 hq).1)
    simp only
    have g4 : (es.drop (8 * i)).take 8 = (w.drop (8 * i)).take 8 := take_drop_eq (by rw [show 8 * i + 8 = 8 * (i + 1) by omega]; exact g1) (by omega) (by omega)
    by_cases hc : 8 < (u.drop (8 * i)).length ∧ (u.drop (8 * i)).take 8 = (es.drop (8 * i)).take 8
    · rw [if_pos hc]
      obtain ⟨c1, c2⟩ := hc
      rw [List.length_drop] at c1
      refine ⟨rfl, ?_, by omega⟩
      rw [show 8 * (i + 1) = 8 * i + 8 by omega, take_split, take_split, h2, c2, g4]
    · rw [if_neg hc]
      have c1 : u ≠ w := by
        rintro rfl
        exact hc ⟨by rw [List.length_drop]; omega, g4.symm⟩
      have c2 : u ≠ es := by
        rintro rfl
        exact hc ⟨by rw [List.length_drop]; omega, rfl⟩
      show (if u = w then _ else _) = _
      rw [if_neg c1, if_neg c2]

theorem conv_leaf {s : Chain.St V} {x t q : Nat} {lv : NV.W} (e : s.hold x = .locked lv) :
    ((Chain.act f s (.convert x t q)).leaf x).b.ikey = (s.leaf x).b.ikey := by
  unfold Chain.act
  simp only [e]
  split
  · show (upd s.leaf x _ x).b.ikey = _
    rw [upd_same]; rfl
  · rfl

/-- What the leaf at position `i` says, when the layers have just been made. -/
theorem new_says {n L x t : Nat} {d : Bytes} {v : V} {qs : List Nat} (h : Exec f σ α) (ea : α n = some (.convert L x t d v qs))
    {bs : List (Leaf V)} (hcf : conflict (σ n) L x t d v qs = some bs) {z : Nat} (hz : z ∈ qs) :
    (σ (n + 1)).layer z = newLayer (bs.getD (qs.idxOf z) emptyLeaf) ∧
    (σ (n + 1)).pre z = d.take (((σ n).pre L).length + 8 * (qs.idxOf z + 1)) ∧
    ∀ k, C σ α z k (n + 1) = leafSays (bs.getD (qs.idxOf z) emptyLeaf) k := by
  obtain ⟨lv, ev, es, hc⟩ := conflict_conf hcf
  have hb := h.basic n
  have hml := hb.made L hc.up
  have hnm := hc.new z hz
  have hne : z ≠ L := by rintro rfl; rw [hnm] at hml; cases hml
  have hs : σ (n + 1) = act f (σ n) (.convert L x t d v qs) := by rw [h.step n, ea]
  have hl : (σ (n + 1)).layer z = newLayer (bs.getD (qs.idxOf z) emptyLeaf) := by
    rw [hs]; unfold act; simp only [hcf]
    rw [upd_ne _ _ _ hne]
    simp only [if_pos hz]
  refine ⟨hl, ?_, ?_⟩
  · rw [hs]; unfold act; simp only [hcf, if_pos hz]
  · intro k
    have hm1 : (σ (n + 1)).made z = true := by
      rw [hs]; unfold act; simp only [hcf]
      rw [List.contains_iff_mem.2 hz, Bool.or_true]
    have hborn : born σ z = n + 1 := by
      have h1 := born_le hm1
      have h2 := born_made hm1
      rcases Nat.lt_or_ge (born σ z) (n + 1) with h3 | h3
      · rw [h.made_mono (Nat.le_of_lt_succ h3) h2] at hnm; cases hnm
      · omega
    rw [C_born (by omega), hborn, hl]
    unfold newLayer
    simp only [upd_same]

section
variable (h : Exec f σ α) {n L x t : Nat} {d : Bytes} {v : V} {qs : List Nat} (ea : α n = some (.convert L x t d v qs))
  {bs : List (Leaf V)} (hcf : conflict (σ n) L x t d v qs = some bs)
include h ea hcf

theorem Good.convert (I : Good σ α n) : Good σ α (n + 1) := by
  obtain ⟨lv, ev, es, hc⟩ := conflict_conf hcf
  have hb := h.basic n
  have hu := hc.up
  have hm := hb.made L hu
  have ha := hb.align L hm
  have hs : σ (n + 1) = act f (σ n) (.convert L x t d v qs) := by rw [h.step n, ea]
  have hpre : ∀ z, (σ n).made z = true → (σ (n + 1)).pre z = (σ n).pre z := fun z hz => by rw [hs]; exact pre_act _ hz
  have hup : (σ (n + 1)).up = (σ n).up := by rw [hs]; unfold act; simp only [hcf]
  have hold : ∀ z, (σ n).made z = true → z ∉ qs := fun z hz hq => by rw [hc.new z hq] at hz; cases hz
  have hmade0 : ∀ z, (σ n).made z = true → (σ (n + 1)).made z = true := fun z hz => by rw [hs]; exact made_act _ hz
  have hmade1 : ∀ z ∈ qs, (σ (n + 1)).made z = true := fun z hz => by
    rw [hs]; unfold act; simp only [hcf]
    rw [List.contains_iff_mem.2 hz, Bool.or_true]
  have hin : (α n).bind (inner (σ n) L) = some (.convert x t (qs.headD 0)) := by
    rw [ea]; show inner (σ n) L (.convert L x t d v qs) = _
    unfold inner; simp [hcf]
  have hin0 : ∀ z, z ≠ L → (α n).bind (inner (σ n) z) = none := by
    intro z hz
    rw [ea]; show inner (σ n) z (.convert L x t d v qs) = _
    unfold inner; simp [Ne.symm hz]
  have hl0 : ∀ z, (σ n).made z = true → z ≠ L → (σ (n + 1)).layer z = (σ n).layer z := by
    intro z hz hne
    rw [hs, layer_act _ hz]
    have := hin0 z hne
    rw [ea] at this
    have : inner (σ n) z (.convert L x t d v qs) = none := this
    rw [this]
  have hl1 : (σ (n + 1)).layer L = Chain.act f ((σ n).layer L) (.convert x t (qs.headD 0)) := by
    rw [hs, layer_act _ hm]
    have := hin
    rw [ea] at this
    have : inner (σ n) L (.convert L x t d v qs) = _ := this
    rw [this]
  have hC : ∀ z k, (σ n).made z = true → C σ α z k (n + 1) = C σ α z k n := by
    intro z k hz
    by_cases e : z = L
    · subst e; rw [C_step hm, hin]; rfl
    · exact C_still (hin0 z e)
  have hM : ∀ d', map σ α d' (n + 1) = map σ α d' n := fun d' => map_still (by rw [ea]; rfl)
  have hjob0 : ∀ q, (σ n).made q = true → (σ (n + 1)).job q = (σ n).job q := by
    intro q hq
    rw [hs]; unfold act; simp only [hcf]
    apply upd_ne
    rintro rfl
    apply hold _ hq
    cases qs with
    | nil => exact absurd rfl hc.some
    | cons q qs => exact List.mem_cons_self
  have hhead : qs.headD 0 ∈ qs := by
    cases qs with
    | nil => exact absurd rfl hc.some
    | cons q qs => exact List.mem_cons_self
  have hidx : qs.idxOf (qs.headD 0) = 0 := by
    cases qs with
    | nil => exact absurd rfl hc.some
    | cons q qs => exact List.idxOf_cons_self
  have hjob1 : (σ (n + 1)).job (qs.headD 0) = some ⟨d, v, qs⟩ := by
    rw [hs]; unfold act; simp only [hcf]; exact upd_same _ _ _
  have hi : In (((σ n).layer L).leaf x).b.perm t := by
    have := hc.pub
    apply Classical.byContradiction
    intro hh
    rw [(freeSlot_iff _ _).2 hh] at this; cases this
  -- what the map says about the keys with these eight bytes
  have hold_map : ∀ d', Rel (σ n) L x t d' → map σ α d' n = if d'.drop (((σ n).pre L).length + 8) = es then some ev else none := by
    intro d' hr
    have h1 := I.one L d' hu hr.1
    have h2 := h.locked_slot hm hc.hold hi hc.klx hr.2.2 hr.2.1
    have h2' : C σ α L (keyIn ((σ n).pre L) d') n = _ := h2
    have h1' : Agrees (map σ α d' n) (C σ α L (keyIn ((σ n).pre L) d') n) _ := h1
    have hsuf : (keyIn ((σ n).pre L) d').suffix = d'.drop (((σ n).pre L).length + 8) := by
      rw [(obs_keyIn ha).suffix, List.drop_drop]
    have hsl : SlotIs (((σ n).layer L).leaf x).b t (keyIn ((σ n).pre L) d') ↔ d'.drop (((σ n).pre L).length + 8) = es := by
      unfold SlotIs
      rw [hr.2.1, if_pos rfl, hc.ksuf, hsuf]
      constructor
      · intro hh; exact (Option.some.inj hh.2.2).symm
      · intro hh; exact ⟨hr.2.2, hc.klx, by rw [hh]⟩
    unfold shown at h2'
    rw [hc.cell] at h2'
    simp only at h2'
    by_cases e : d'.drop (((σ n).pre L).length + 8) = es
    · rw [if_pos (hsl.2 e)] at h2'
      rw [h2'] at h1'
      rw [if_pos e]; exact h1'
    · rw [if_neg (fun hh => e (hsl.1 hh))] at h2'
      rw [h2'] at h1'
      rw [if_neg e]; exact h1'
  have hback : ∀ L0 x0 lv0 t0 q0 st0, (σ (n + 1)).up L0 = true → ((σ (n + 1)).layer L0).hold x0 = .conv lv0 t0 q0 st0 →
      (σ n).up L0 = true ∧ ((∃ st', ((σ n).layer L0).hold x0 = .conv lv0 t0 q0 st' ∧
        (((σ (n + 1)).layer L0).leaf x0).b.ikey = (((σ n).layer L0).leaf x0).b.ikey) ∨ (L0 = L ∧ x0 = x ∧ t0 = t ∧ q0 = qs.headD 0)) := by
    intro L0 x0 lv0 t0 q0 st0 hu0 e0
    rw [hup] at hu0
    refine ⟨hu0, ?_⟩
    by_cases e : L0 = L
    · subst e
      rw [hl1] at e0 ⊢
      rcases conv_before (h.linv hm) e0 with h1 | ⟨h1, _⟩
      · exact .inl h1
      · cases h1
        exact .inr ⟨rfl, rfl, rfl, rfl⟩
    · rw [hl0 L0 (hb.made L0 hu0) e] at e0 ⊢
      exact .inl ⟨st0, e0, rfl⟩
  refine ⟨?_, ?_, ?_, ?_⟩
  · intro L0 d' hu0 hd
    rw [hup] at hu0
    have hm0 := hb.made L0 hu0
    rw [hpre L0 hm0] at hd ⊢
    show Agrees (map σ α d' (n + 1)) (C σ α L0 _ (n + 1)) _
    rw [hM, hC L0 _ hm0]
    refine (I.one L0 d' hu0 hd).mono ?_
    rintro q ⟨h1, h2⟩
    rw [hup, hpre q (hb.made q h1)]
    exact ⟨h1, h2⟩
  · intro L0 hu0 hn0
    rw [hup] at hu0
    obtain ⟨P, p1, p2, p3, p4⟩ := I.tree L0 hu0 hn0
    refine ⟨P, by rw [hup]; exact p1, ?_⟩
    rw [hpre L0 (hb.made L0 hu0), hpre P (hb.made P p1)]
    exact ⟨p2, p3, fun d' hd => (hC P _ (hb.made P p1)).trans (p4 d' hd)⟩
  · intro L0 x0 lv0 t0 q0 st0 hu0 e0
    obtain ⟨hu0', hcase⟩ := hback L0 x0 lv0 t0 q0 st0 hu0 e0
    rcases hcase with ⟨st', e0', hik⟩ | ⟨rfl, rfl, rfl, rfl⟩
    · obtain ⟨j, hj, hP⟩ := I.pend L0 x0 lv0 t0 q0 st' hu0' e0'
      have hmq := fun z hz => (hP.idle z hz).1
      refine ⟨j, by rw [hjob0 q0 (hmq q0 hP.head)]; exact hj, hP.head, ?_, ?_, (hM _).trans hP.fresh, ?_, ?_, ?_, ?_⟩
      · intro z hz
        obtain ⟨h1, h2, h3⟩ := hP.idle z hz
        have hne : z ≠ L := by rintro rfl; rw [h2] at hu; cases hu
        exact ⟨hmade0 z h1, by rw [hup]; exact h2, by rw [hl0 z h1 hne]; exact h3⟩
      · unfold Rel
        rw [hpre L0 (hb.made L0 hu0'), hik]
        exact hP.rel
      · rw [hpre q0 (hmq q0 hP.head), hpre L0 (hb.made L0 hu0')]; exact hP.pre
      · intro z hz; rw [hpre q0 (hmq q0 hP.head), hpre z (hmq z hz)]; exact hP.below z hz
      · intro z hz
        rcases hP.links z hz with h1 | ⟨P, p1, p2, p3, p4⟩
        · exact .inl h1
        · refine .inr ⟨P, p1, ?_⟩
          rw [hpre z (hmq z hz), hpre P (hmq P p1)]
          exact ⟨p2, p3, fun d' hd => (hC P _ (hmq P p1)).trans (p4 d' hd)⟩
      · intro z hz d' hd
        rw [hpre z (hmq z hz)] at hd ⊢
        show Agrees (if d' = j.key then some j.val else map σ α d' (n + 1)) (C σ α z _ (n + 1)) _
        rw [hM, hC z _ (hmq z hz)]
        refine (hP.tells z hz d' hd).mono ?_
        rintro q' ⟨h1, h2⟩
        rw [hpre q' (hmq q' h1)]
        exact ⟨h1, h2⟩
    · -- the new conversion
      have hnew := fun z hz => new_says h ea hcf (z := z) hz
      have hrel : Rel (σ n) L0 x0 t0 d := ⟨hc.under, hc.more, hc.ikey⟩
      have hlong := hc.longer ha
      have hfresh : map σ α d n = none := by
        rw [hold_map d hrel, if_neg]
        rw [← hc.suffix ha]; exact Ne.symm hc.ne
      have hplen : ∀ z ∈ qs, ((σ (n + 1)).pre z).length = ((σ n).pre L0).length + 8 * (qs.idxOf z + 1) := by
        intro z hz
        rw [(hnew z hz).2.1, List.length_take]
        have := hc.pre_len ha (List.idxOf_lt_length_iff.2 hz)
        omega
      have hsays : ∀ z ∈ qs, ∀ d', C σ α z (keyIn ((σ (n + 1)).pre z) d') (n + 1) =
          layerSays qs es (d.drop (((σ n).pre L0).length + 8)) ev v (qs.idxOf z) (d'.drop (((σ n).pre L0).length + 8 * (qs.idxOf z + 1))) := by
        intro z hz d'
        rw [(hnew z hz).2.2]
        have hbu := hc.built ha (List.idxOf_lt_length_iff.2 hz)
        refine hbu.tells _ _ ?_
        have := obs_keyIn (p := (σ (n + 1)).pre z) (d := d') (by rw [hplen z hz]; omega)
        rw [hplen z hz] at this
        exact this
      have hund : ∀ z ∈ qs, ∀ d', Under ((σ (n + 1)).pre z) d' →
          d'.take (((σ n).pre L0).length + 8 * (qs.idxOf z + 1)) = d.take (((σ n).pre L0).length + 8 * (qs.idxOf z + 1)) ∧
          ((σ n).pre L0).length + 8 * (qs.idxOf z + 1) < d'.length := by
        intro z hz d' hd
        have h1 := hd.take
        rw [hplen z hz, (hnew z hz).2.1] at h1
        refine ⟨h1, ?_⟩
        rcases hd.2 with e | e
        · have := hplen z hz; rw [e] at this; simp at this
        · rw [hplen z hz] at e; exact e
      refine ⟨⟨d, v, qs⟩, hjob1, hhead, ?_, ?_, (hM _).trans hfresh, ?_, ?_, ?_, ?_⟩
      · intro z hz
        refine ⟨hmade1 z hz, ?_, ?_⟩
        · rw [hup]
          cases hh : (σ n).up z with
          | false => rfl
          | true => have := hb.made z hh; rw [hc.new z hz] at this; cases this
        · intro y; rw [(hnew z hz).1]; rfl
      · unfold Rel
        rw [hpre L0 hm, hl1, conv_leaf hc.hold]
        exact hrel
      · show (σ (n + 1)).pre _ = d.take _
        rw [(hnew _ hhead).2.1, hidx, hpre L0 hm]
      · intro z hz
        rw [(hnew _ hhead).2.1, hidx, (hnew z hz).2.1]
        have : d.take (((σ n).pre L0).length + 8 * (0 + 1)) = (d.take (((σ n).pre L0).length + 8 * (qs.idxOf z + 1))).take (((σ n).pre L0).length + 8 * (0 + 1)) := by
          rw [List.take_take, Nat.min_eq_left (by omega)]
        rw [this]
        exact List.take_prefix _ _
      · intro z hz
        have hz : z ∈ qs := hz
        have hlt := List.idxOf_lt_length_iff.2 hz
        by_cases h0 : qs.idxOf z = 0
        · left
          have h1 : qs[qs.idxOf z]? = some z := by rw [List.getElem?_eq_getElem hlt, List.getElem_idxOf]
          rw [h0] at h1
          cases qs with
          | nil => cases h1
          | cons q qs => exact (Option.some.inj h1).symm
        · right
          obtain ⟨i, hi'⟩ := Nat.exists_eq_succ_of_ne_zero h0
          have hz1 : qs[i + 1]? = some z := by
            rw [show i + 1 = qs.idxOf z from hi'.symm, List.getElem?_eq_getElem hlt, List.getElem_idxOf]
          have hil : i < qs.length := by omega
          have hPm : qs[i] ∈ qs := List.getElem_mem hil
          have hPi : qs.idxOf qs[i] = i := hc.nodup.idxOf_getElem i hil
          refine ⟨qs[i], hPm, by rw [hplen _ hPm, hplen z hz, hPi, hi']; omega, ?_, ?_⟩
          · rw [(hnew _ hPm).2.1, (hnew z hz).2.1, hPi, hi']
            rw [List.prefix_iff_eq_take, List.take_take, List.length_take]
            have := hc.pre_len ha hil
            congr 1; omega
          · intro d' hd
            show C σ α qs[i] _ (n + 1) = _
            obtain ⟨t1, t2⟩ := hund z hz d' hd
            rw [hsays _ hPm, hPi]
            unfold layerSays
            rw [hz1]
            have hbu := hc.built ha (i := i + 1) (by omega)
            obtain ⟨l1, l2⟩ := hbu.long (by omega)
            rw [List.length_drop] at l2
            rw [hi'] at t1 t2
            refine if_pos ⟨by rw [List.length_drop]; omega, ?_⟩
            have g4 := take_drop_eq (a := es) (b := d.drop (((σ n).pre L0).length + 8)) (m := 8 * i) (n := 8) (by rw [show 8 * i + 8 = 8 * (i + 1) by omega]; exact hbu.common)
              (by omega) (by rw [List.length_drop]; omega)
            rw [g4, List.drop_drop, show ((σ n).pre L0).length + 8 + 8 * i = ((σ n).pre L0).length + 8 * (i + 1) by omega]
            exact take_drop_eq (by rw [show ((σ n).pre L0).length + 8 * (i + 1) + 8 = ((σ n).pre L0).length + 8 * (i.succ + 1) by omega]; exact t1) (by omega) (by omega)
      · intro z hz d' hd
        have hz : z ∈ qs := hz
        obtain ⟨t1, t2⟩ := hund z hz d' hd
        have hlt := List.idxOf_lt_length_iff.2 hz
        have hbu := hc.built ha hlt
        have hlen := hc.pre_len ha hlt
        show Agrees (if d' = d then some v else map σ α d' (n + 1)) (C σ α z _ (n + 1)) _
        rw [hM, hsays z hz]
        have hN : d'.take (((σ n).pre L0).length + 8) = d.take (((σ n).pre L0).length + 8) := take_of_le (by omega) t1
        have hr : Rel (σ n) L0 x0 t0 d' := by
          refine ⟨under_of_take ?_ (by omega), (more_iff ha).2 (by omega), ?_⟩
          · rw [take_of_le (by omega) hN]; exact hc.under.take
          · rw [hc.ikey]; exact (ikey_of_take ha (by omega) hlong hN).symm
        have key := layer_tells (qs := qs) (es := es) (w := d.drop (((σ n).pre L0).length + 8)) (u := d'.drop (((σ n).pre L0).length + 8))
          (ev := ev) (v := v) (i := qs.idxOf z) (by rw [← hc.suffix ha]; exact hc.ne) hbu.common
          (take_drop_eq (by rw [show ((σ n).pre L0).length + 8 + 8 * qs.idxOf z = ((σ n).pre L0).length + 8 * (qs.idxOf z + 1) by omega]; exact t1) (by omega) (by omega))
          (by rw [List.length_drop]; omega)
          (fun hlt' => by
            have hb2 := hc.built ha hlt'
            exact ⟨hb2.common, hb2.long (by omega)⟩)
        rw [List.drop_drop, show ((σ n).pre L0).length + 8 + 8 * qs.idxOf z = ((σ n).pre L0).length + 8 * (qs.idxOf z + 1) by omega] at key
        rw [hold_map d' hr, if_congr (eq_iff_drop hN) rfl rfl]
        refine key.mono ?_
        rintro q' ⟨k1, k2, k3⟩
        obtain ⟨k1a, k1b⟩ := List.getElem?_eq_some_iff.1 k1
        have hq' : q' ∈ qs := k1b ▸ List.getElem_mem k1a
        have hqi : qs.idxOf q' = qs.idxOf z + 1 := by
          conv_lhs => rw [← k1b]
          exact hc.nodup.idxOf_getElem _ k1a
        rw [List.length_drop] at k3
        refine ⟨hq', ?_, by rw [hplen z hz]; omega⟩
        rw [(hnew q' hq').2.1, hqi, hplen z hz,
          show ((σ n).pre L0).length + 8 * (qs.idxOf z + 1 + 1) = (((σ n).pre L0).length + 8) + 8 * (qs.idxOf z + 1) by omega,
          show ((σ n).pre L0).length + 8 * (qs.idxOf z + 1) + 8 = (((σ n).pre L0).length + 8) + 8 * (qs.idxOf z + 1) by omega,
          take_split d, take_split d', hN, k2]
  · intro L1 x1 lv1 t1 q1 st1 L2 x2 lv2 t2 q2 st2 j1 j2 z hu1 hu2 e1 e2 hj1 hj2 hz1 hz2
    have old : ∀ {L0 x0 lv0 t0 q0 st'} {j : Job V}, (σ n).up L0 = true → ((σ n).layer L0).hold x0 = .conv lv0 t0 q0 st' →
        (σ (n + 1)).job q0 = some j → (σ n).job q0 = some j ∧ ∀ z ∈ j.made, (σ n).made z = true := by
      intro L0 x0 lv0 t0 q0 st' j hu0 e0 hj
      obtain ⟨j', hj', hP⟩ := I.pend L0 x0 lv0 t0 q0 st' hu0 e0
      rw [hjob0 q0 (hP.idle q0 hP.head).1] at hj
      exact ⟨hj, hb.jobs q0 j hj⟩
    have new : ∀ {q0} {j : Job V}, q0 = qs.headD 0 → (σ (n + 1)).job q0 = some j → ∀ z ∈ j.made, (σ n).made z = false := by
      rintro q0 j rfl hj z hz
      rw [hjob1] at hj; cases hj
      exact hc.new z hz
    obtain ⟨hu1', c1⟩ := hback L1 x1 lv1 t1 q1 st1 hu1 e1
    obtain ⟨hu2', c2⟩ := hback L2 x2 lv2 t2 q2 st2 hu2 e2
    rcases c1 with ⟨s1, f1, _⟩ | ⟨a1, a2, a3, a4⟩ <;> rcases c2 with ⟨s2, f2, _⟩ | ⟨b1, b2, b3, b4⟩
    · exact I.sep L1 x1 lv1 t1 q1 s1 L2 x2 lv2 t2 q2 s2 j1 j2 z hu1' hu2' f1 f2 (old hu1' f1 hj1).1 (old hu2' f2 hj2).1 hz1 hz2
    · have := (old hu1' f1 hj1).2 z hz1
      rw [new b4 hj2 z hz2] at this; cases this
    · have := (old hu2' f2 hj2).2 z hz2
      rw [new a4 hj1 z hz1] at this; cases this
    · exact ⟨a1.trans b1.symm, a2.trans b2.symm⟩
end

theorem Exec.good (h : Exec f σ α) (n : Nat) : Good σ α n := by
  induction n with
  | zero =>
    have hs := h.1
    have hb := h.basic 0
    have hm := hb.made 0 hb.root
    refine ⟨?_, ?_, ?_, ?_⟩
    · intro L d hu hd
      have := (hs.up L).1 hu
      subst this
      have hborn : born σ 0 = 0 := Nat.le_zero.1 (born_le hm)
      show Agrees none (C σ α 0 _ 0) _
      rw [C_born (Nat.zero_le _), hborn]
      unfold leafSays
      rw [hs.empty]
      rfl
    · intro L hu h0; exact absurd ((hs.up L).1 hu) h0
    · intro L x lv t q st hu e
      have := (hs.up L).1 hu
      subst this
      rw [hs.root.hold x] at e; cases e
    · intro L x lv t q st L' x' lv' t' q' st' j j' z hu _ e
      have := (hs.up L).1 hu
      subst this
      rw [hs.root.hold x] at e; cases e
  | succ n ih =>
    cases ea : α n with
    | none =>
      refine ih.still (by rw [h.step n, ea]) (fun L => by rw [ea]; rfl) (fun d => by rw [ea]; rfl)
    | some a =>
      cases a with
      | inLayer L a =>
        by_cases hc : (σ n).up L = true ∧ plain a = true
        · exact Good.inLayer h ea hc.1 hc.2 ih
        · refine ih.still ?_ (fun L' => ?_) (fun d => ?_)
          · rw [h.step n, ea]
            show act f (σ n) (.inLayer L a) = _
            unfold act; simp only [if_neg hc]
          · rw [ea]; show inner (σ n) L' (.inLayer L a) = _
            unfold inner
            exact if_neg (fun hh => hc hh.2)
          · rw [ea]; show written (σ n) d (.inLayer L a) = _
            unfold written
            exact if_neg (fun hh => hc ⟨hh.1, hh.2.1⟩)
      | convert L x t d v qs =>
        cases hcf : conflict (σ n) L x t d v qs with
        | some bs => exact Good.convert h ea hcf ih
        | none =>
          refine ih.still ?_ (fun L' => ?_) (fun d' => by rw [ea]; rfl)
          · rw [h.step n, ea]
            show act f (σ n) (.convert L x t d v qs) = _
            unfold act; simp only [hcf]
          · rw [ea]; show inner (σ n) L' (.convert L x t d v qs) = _
            unfold inner
            simp [hcf]

end Verif.Forest
