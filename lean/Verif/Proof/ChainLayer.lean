import Verif.Prop.ChainValue
set_option linter.unusedSimpArgs false
set_option linter.unusedVariables false
/-!
# What the map of one layer says while a value becomes a sublayer
-/
namespace Verif.Chain
open Verif.Internode (upd upd_same upd_ne)
open Verif.Perm (size get)
open Verif.Tree (Leaf Cell)
open Verif.Race (SlotIs SlotLeads RPc Out)
open Verif.Cas (In not_frozen)
variable {V : Type}

theorem Inv.covers {s : St V} (I : Inv s) {x t : Nat} (hn : (s.hold x).new = none) (hl : s.live x = true)
    (hi : In (s.leaf x).b.perm t) : (s.leaf x).lo ≤ (s.leaf x).b.ikey t ∧
      ((s.leaf x).nx ≠ 0 → (s.leaf x).b.ikey t < (s.leaf (s.leaf x).nx).lo) := by
  have hst := I.still hn hl
  obtain ⟨i, hi, ei⟩ := hi
  exact ⟨by rw [← ei]; exact hst.2.2.1 i hi, fun h0 => by rw [← ei]; exact hst.2.2.2 h0 i hi⟩

/-- While a value is being turned into a sublayer, the keys under its eight bytes are not written, up to the last store. -/
theorem Exec.conv_quiet {f : Bool} {σ : Nat → St V} (h : Exec f σ) {n x t q st : Nat} {lv : NV.W} {k : Key}
    (e : (σ n).hold x = .conv lv t q st) (ek : ((σ n).leaf x).b.ikey t = k.ikey) (hk : k.hasSuffix = true) {a : Act V} {r : Out V}
    (hw : written (σ n) k a = some r) : a = .hold x ∧ st = 4 ∧ r = .descend q := by
  have I := h.inv n
  have hl := I.own x (by rw [e]; simp) (by rw [e]; simp)
  have hcov := I.covers (x := x) (t := t) (by rw [e]; rfl) hl (h.convOk n x lv t q st e).pub
  rw [ek] at hcov
  have same : ∀ z, (σ n).live z = true → ((σ n).leaf z).lo ≤ k.ikey →
      (((σ n).leaf z).nx ≠ 0 → k.ikey < ((σ n).leaf ((σ n).leaf z).nx).lo) → z = x :=
    fun z h1 h2 h3 => I.same_range h1 hl h2 h3 hcov.1 hcov.2
  cases a <;> unfold written at hw <;> simp only at hw <;> try cases hw
  case update z t' v' =>
    exfalso
    cases e1 : (σ n).hold z with
    | locked lv' =>
      cases e2 : ((σ n).leaf z).b.cell t' with
      | val w =>
        rw [e1, e2] at hw
        simp only at hw
        split at hw
        · rename_i hc
          have hlz := I.own z (by rw [e1]; simp) (by rw [e1]; simp)
          have hi : In ((σ n).leaf z).b.perm t' := by
            by_contra hh
            rw [(freeSlot_iff _ _).2 hh] at hc; cases hc.1
          have hcz := I.covers (x := z) (t := t') (by rw [e1]; rfl) hlz hi
          rw [hc.2.1] at hcz
          have := same z hlz hcz.1 hcz.2
          rw [this, e] at e1; cases e1
        · cases hw
      | null => rw [e1, e2] at hw; cases hw
      | layer q => rw [e1, e2] at hw; cases hw
    | _ => rw [e1] at hw; cases hw
  case publish z pos off =>
    exfalso
    cases e1 : (σ n).hold z with
    | locked lv' =>
      rw [e1] at hw
      simp only at hw
      split at hw
      · rename_i hc
        obtain ⟨⟨_, _, hfit⟩, hsl⟩ := hc
        have hlz := I.own z (by rw [e1]; simp) (by rw [e1]; simp)
        unfold fits at hfit
        obtain ⟨-, -, hf2, hf3, hf4, -⟩ := of_decide_eq_true hfit
        rw [hsl.1] at hf3 hf4
        have := same z hlz hf3 hf4
        rw [this, e] at e1; cases e1
      · cases hw
    | _ => rw [e1] at hw; cases hw
  case hold z =>
    cases e1 : (σ n).hold z with
    | conv lv' t' q' st' =>
      rw [e1] at hw
      simp only at hw
      split at hw
      · rename_i hc
        have hlz := I.own z (by rw [e1]; simp) (by rw [e1]; simp)
        have hcz := I.covers (x := z) (t := t') (by rw [e1]; rfl) hlz (h.convOk n z lv' t' q' st' e1).pub
        rw [hc.2.1] at hcz
        have hz := same z hlz hcz.1 hcz.2
        subst hz
        rw [e1] at e
        cases e
        cases hw
        exact ⟨rfl, hc.1, rfl⟩
      · cases hw
    | _ => rw [e1] at hw; cases hw

/-- When a conversion begins, the map says about the keys under the eight bytes of the slot what the slot says. -/
theorem Exec.locked_slot {f : Bool} {σ : Nat → St V} (h : Exec f σ) {α : Nat → Option (Act V)} (hα : Steps f σ α)
    {n x t : Nat} {lv : NV.W} {k : Key} (e : (σ n).hold x = .locked lv) (hi : In ((σ n).leaf x).b.perm t)
    (h64 : ((σ n).leaf x).b.klx t = 64) (ek : ((σ n).leaf x).b.ikey t = k.ikey) (hk : k.hasSuffix = true) :
    Chain.contents σ α k n = (shown ((σ n).leaf x).b t k).getD .absent := by
  have I := h.inv n
  have hl := I.own x (by rw [e]; simp) (by rw [e]; simp)
  have hfz : ((σ n).hold x).froz = none := by rw [e]; rfl
  cases es : shown ((σ n).leaf x).b t k with
  | some r =>
    obtain ⟨j, hj, ej⟩ := hi
    exact h.holds hα ⟨x, j, hl, not_frozen (I.thawed x hfz), hj, by rw [ej]; exact es⟩
  | none =>
    show Chain.contents σ α k n = .absent
    by_contra hcn
    obtain ⟨p, hp, hh⟩ := h.was_present hα (r := Chain.contents σ α k n) rfl hcn
    have hheld : Held (σ n) k := h.held (.inl (hh.present.held (h.inv p)).1) hp
    have hcov := I.covers (x := x) (t := t) (by rw [e]; rfl) hl hi
    rw [ek] at hcov
    rcases hheld with ⟨φ, hj⟩ | ⟨_, x', lv', t', q', st', e2, hik⟩
    · rcases hj x hl hcov.1 with ⟨t', ht⟩ | hpa | ⟨y1, u, hy1, _⟩
      · unfold Here at ht
        rw [e] at ht
        have hi' : In ((σ n).leaf x).b.perm t' := ht.1
        have hb := ht.2
        have hcl : cls (((σ n).leaf x).b.klx t') = 64 := by
          have := hb.klx
          cases φ with
          | false => rw [show ((σ n).leaf x).b.klx t' = _ from this]; unfold Tree.searchKlx; rw [if_pos hk]; rfl
          | true => unfold cls; rw [if_pos]; have h1 : 128 ≤ ((σ n).leaf x).b.klx t' := this.1; omega
        have T := h.tidy n
        have htt : t' = t := by
          refine In.unique ?_ hi' hi (by rw [hb.ikey, ek]) (by rw [hcl, h64]; rfl)
          have := T.pairs x hfz
          rw [E_none (by rw [e]; rfl)] at this
          exact this
        subst htt
        cases φ with
        | false =>
          obtain ⟨hs, v, hv⟩ := hb
          rw [shown_val hv hs] at es; cases es
        | true =>
          have : 128 ≤ ((σ n).leaf x).b.klx t' := hb.klx.1
          omega
      · have := hcov.2 hpa.1
        have := hpa.2
        omega
      · rw [e] at hy1; cases hy1
    · have hl' := I.own x' (by rw [e2]; simp) (by rw [e2]; simp)
      have hcz := I.covers (x := x') (t := t') (by rw [e2]; rfl) hl' (h.convOk n x' lv' t' q' st' e2).pub
      rw [hik] at hcz
      have hxx := I.same_range hl' hl hcz.1 hcz.2 hcov.1 hcov.2
      rw [hxx, e] at e2; cases e2

/-- Only the beginning of a conversion takes the holder of a lock into one. -/
theorem locked_conv {f : Bool} {s : St V} {a : Act V} {x t q st : Nat} {lv lv' : NV.W} (e : s.hold x = .locked lv)
    (e' : (act f s a).hold x = .conv lv' t q st) :
    a = .convert x t q ∧ freeSlot (s.leaf x).b.perm t = false ∧ (s.leaf x).b.klx t = 64 ∧ st = 1 ∧ lv' = lv := by
  have stay : ∀ {h : HPc}, h = .conv lv' t q st → h = s.hold x → False := by
    intro h h1 h2; rw [h2, e] at h1; cases h1
  have put : ∀ {z : Nat} {h : HPc}, upd s.hold z h x = .conv lv' t q st → h.trans = none → False := by
    intro z h h1 h2
    rw [upd_if] at h1
    split at h1
    · rw [h1] at h2; cases h2
    · exact stay h1 rfl
  cases a with
  | convert z t' q' =>
    unfold act at e'; simp only at e'
    split at e'
    · rename_i lv0 e0
      split at e'
      · rename_i hc
        have e' : upd s.hold z (convNext lv0 t' q' 0) x = .conv lv' t q st := e'
        by_cases ez : x = z
        · subst ez
          rw [upd_same] at e'
          rw [e] at e0
          cases e0
          unfold convNext at e'
          rw [if_pos (by omega)] at e'
          cases e'
          exact ⟨rfl, hc.1, hc.2, rfl, rfl⟩
        · rw [upd_ne _ _ _ ez] at e'; exact (stay e' rfl).elim
      · exact (stay e' rfl).elim
    · exact (stay e' rfl).elim
  | freeze z sp y =>
    exfalso
    unfold act at e'; simp only at e'
    split at e'
    · split at e'
      · have e' : upd (upd s.hold y .newborn) z _ x = .conv lv' t q st := e'
        rw [upd_if] at e'
        split at e'
        · cases e'
        · exact put e' rfl
      · exact stay e' rfl
    · exact stay e' rfl
  | hold z =>
    exfalso
    have e' : (hstep s z).hold x = .conv lv' t q st := e'
    by_cases hz : x = z
    · subst hz
      unfold hstep at e'
      rw [e] at e'
      exact stay e' rfl
    · unfold hstep at e'
      split at e' <;> (try split at e') <;>
        first
        | exact stay e' rfl
        | (have e'' := e'; simp only at e''; rw [upd_ne _ _ _ hz] at e''; exact stay e'' rfl)
  | _ =>
    exfalso
    unfold act at e'; simp only at e'
    (repeat' split at e') <;> first | exact stay e' rfl | exact put e' rfl

/-- How a conversion comes about. -/
theorem conv_before {f : Bool} {s : St V} (I : Inv s) {a : Act V} {x t q st : Nat} {lv : NV.W}
    (e' : (act f s a).hold x = .conv lv t q st) :
    (∃ st', s.hold x = .conv lv t q st' ∧ ((act f s a).leaf x).b.ikey = (s.leaf x).b.ikey) ∨
    (a = .convert x t q ∧ s.hold x = .locked lv ∧ freeSlot (s.leaf x).b.perm t = false ∧ (s.leaf x).b.klx t = 64) := by
  have hs := cstep_act I f a x
  rw [e'] at hs
  have key : ∀ lv0, s.hold x = .locked lv0 → _ := fun lv0 e0 => locked_conv (f := f) e0 e'
  generalize eh : s.hold x = h0 at hs key
  generalize eb : ((act f s a).leaf x).b = b' at hs
  generalize eb0 : (s.leaf x).b = b at hs key
  generalize ec : HPc.conv lv t q st = h1 at hs
  cases hs with
  | same => exact .inl ⟨st, ec.symm, rfl⟩
  | other => rename_i h1 h2; rw [← ec] at h2; cases h2
  | begin =>
    rename_i lv0 t0 q0 _ _
    obtain ⟨h1, h2, h3, _, h5⟩ := key lv0 rfl
    exact .inr ⟨h1, by rw [h5], h2, h3⟩
  | next =>
    rename_i lv0 t0 q0 st0
    left
    unfold convNext at ec
    split at ec
    · cases ec
      exact ⟨st0, rfl, convStore_ikey ..⟩
    · cases ec

theorem Exec.conv_map {f : Bool} {σ : Nat → St V} (h : Exec f σ) {α : Nat → Option (Act V)} (hα : Steps f σ α) {k : Key}
    (hk : k.hasSuffix = true) {n : Nat} : ∀ {x t q st : Nat} {lv : NV.W}, (σ n).hold x = .conv lv t q st →
    ((σ n).leaf x).b.ikey t = k.ikey → ∀ q', Chain.contents σ α k n ≠ .descend q' := by
  induction n with
  | zero => intro x t q st lv e; rw [h.1.hold x] at e; cases e
  | succ n ih =>
    intro x t q st lv e ek q'
    have hn := hα n
    cases ea : α n with
    | none =>
      rw [ea] at hn
      simp only at hn
      rw [hn] at e ek
      show (match (α n).bind (written (σ n) k) with | some r => r | none => Chain.contents σ α k n) ≠ _
      rw [ea]
      exact ih e ek q'
    | some a =>
      rw [ea] at hn
      simp only at hn
      rw [hn] at e ek
      show (match (α n).bind (written (σ n) k) with | some r => r | none => Chain.contents σ α k n) ≠ _
      rw [ea]
      show (match written (σ n) k a with | some r => r | none => Chain.contents σ α k n) ≠ _
      rcases conv_before (h.inv n) e with ⟨st', e0, hb⟩ | ⟨rfl, e0, hf, h64⟩
      · rw [hb] at ek
        cases hw : written (σ n) k a with
        | none => exact ih e0 ek q'
        | some r =>
          exfalso
          obtain ⟨rfl, rfl, -⟩ := h.conv_quiet e0 ek hk hw
          have : (act f (σ n) (.hold x)).hold x = .locked lv := by
            show (hstep (σ n) x).hold x = _
            unfold hstep; rw [e0]; exact upd_same _ _ _
          rw [this] at e; cases e
      · have hi : In ((σ n).leaf x).b.perm t := by
          by_contra hh
          rw [(freeSlot_iff _ _).2 hh] at hf; cases hf
        have ek0 : ((σ n).leaf x).b.ikey t = k.ikey := by
          rw [← ek]
          unfold act; simp only [e0]; rw [if_pos ⟨hf, h64⟩]
          show _ = (upd (σ n).leaf x _ x).b.ikey t
          rw [upd_same]; rw [convStore_ikey]
        show Chain.contents σ α k n ≠ _
        rw [h.locked_slot hα e0 hi h64 ek0 hk]
        cases es : shown ((σ n).leaf x).b t k with
        | none => simp
        | some r =>
          rcases shown_cases es with ⟨v, _, _, rfl⟩ | ⟨q, _, hl, _⟩
          · simp
          · have := hl.2.1
            omega

/-- Nothing is written about a key for which a sublayer is responsible. -/
theorem Exec.descend_quiet {f : Bool} {σ : Nat → St V} (h : Exec f σ) {α : Nat → Option (Act V)} (hα : Steps f σ α) {k : Key}
    {n q : Nat} (hc : Chain.contents σ α k n = .descend q) (a : Act V) : written (σ n) k a = none := by
  cases hw : written (σ n) k a with
  | none => rfl
  | some r =>
    exfalso
    have hv : ∀ v, r ≠ .value v := by
      rintro v rfl
      have := C56_insert_returns_previous h hα hw
      rw [hc] at this
      unfold answer at this
      split at this <;> cases this
    cases a <;> unfold written at hw <;> simp only at hw <;> try cases hw
    case update z t' v' =>
      split at hw
      · split at hw
        · cases hw; exact hv _ rfl
        · cases hw
      · cases hw
    case publish z pos off =>
      split at hw
      · split at hw
        · split at hw
          · cases hw; exact hv _ rfl
          · cases hw
        · cases hw
      · cases hw
    case hold z =>
      split at hw
      · rename_i e
        split at hw
        · rename_i hh
          exact h.conv_map hα hh.2.2 e hh.2.1 q hc
        · cases hw
      · cases hw

theorem contents_step {σ : Nat → St V} {α : Nat → Option (Act V)} {k : Key} {n : Nat} :
    contents σ α k (n + 1) = match (α n).bind (written (σ n) k) with | some r => r | none => contents σ α k n := rfl

theorem Exec.descend_stays {f : Bool} {σ : Nat → St V} (h : Exec f σ) {α : Nat → Option (Act V)} (hα : Steps f σ α) {k : Key}
    {n q : Nat} (hc : Chain.contents σ α k n = .descend q) : Chain.contents σ α k (n + 1) = .descend q := by
  show (match (α n).bind (written (σ n) k) with | some r => r | none => Chain.contents σ α k n) = _
  cases ea : α n with
  | none => exact hc
  | some a =>
    show (match written (σ n) k a with | some r => r | none => Chain.contents σ α k n) = _
    rw [h.descend_quiet hα hc a]; exact hc

theorem written_cases {s : St V} {k : Key} {a : Act V} {r : Out V} (hw : written s k a = some r) :
    (∃ v, r = .value v) ∨ ∃ x lv t q, a = .hold x ∧ s.hold x = .conv lv t q 4 ∧ (s.leaf x).b.ikey t = k.ikey ∧
      k.hasSuffix = true ∧ r = .descend q := by
  cases a <;> unfold written at hw <;> simp only at hw <;> try cases hw
  case update z t' v' =>
    split at hw
    · split at hw
      · cases hw; exact .inl ⟨_, rfl⟩
      · cases hw
    · cases hw
  case publish z pos off =>
    split at hw
    · split at hw
      · split at hw
        · cases hw; exact .inl ⟨_, rfl⟩
        · cases hw
      · cases hw
    · cases hw
  case hold z =>
    split at hw
    · rename_i e
      split at hw
      · rename_i hh
        cases hw
        rw [hh.1] at e
        exact .inr ⟨_, _, _, _, rfl, e, hh.2.1, hh.2.2, rfl⟩
      · cases hw
    · cases hw

end Verif.Chain
