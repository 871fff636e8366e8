import Verif.Spec.Forest
import Verif.Proof.ChainLayer
import Verif.Proof.Key
set_option linter.unusedSimpArgs false
set_option linter.unusedVariables false
/-!
# The leaves of new layers
-/
namespace Verif.Forest
open Verif.Spec
open Verif.Internode (upd upd_same upd_ne)
open Verif.Perm (size get makeSorted24)
open Verif.Tree (Leaf Cell emptyLeaf layerKeylenx ksufKeylenx finalLeaf assignFromKey PermOK permOK_makeSorted size_makeSorted get_makeSorted)
open Verif.Race (Out SlotIs SlotLeads)
open Verif.Chain (Good Twin cls shown leafSays)
variable {V : Type}

/-- The rest of a key as the code sees it. -/
structure Obs (k : Key) (r : Bytes) : Prop where
  ikey : k.ikey = chunk r
  len : k.currentLen = r.length
  more : k.hasSuffix = decide (8 < r.length)
  suffix : k.suffix = r.drop 8

theorem Obs.of_sees {k : Key} {d : Bytes} {n : Nat} (h : k.Sees d n) : Obs k (d.drop (8 * n)) :=
  ⟨h.ikey_eq, h.currentLen, h.hasSuffix, h.suffix⟩

theorem obs_mk' (d : Bytes) : Obs (Key.mk' d) d := by
  have := Obs.of_sees (Key.mk'_sees d)
  simpa using this

theorem keyIn_at (p d : Bytes) : (keyIn p d).At d (p.length / 8) := by
  have := (Key.mk'_at d).shiftTimes (p.length / 8)
  rw [Nat.zero_add] at this
  exact this

theorem obs_keyIn {p d : Bytes} (h : 8 ∣ p.length) : Obs (keyIn p d) (d.drop p.length) := by
  have := Obs.of_sees (keyIn_at p d).sees
  rwa [Nat.mul_div_cancel' h] at this

theorem SlotIs.obs {b : Leaf V} {t : Nat} {k : Key} {r : Bytes} (o : Obs k r) : SlotIs b t k ↔
    b.ikey t = chunk r ∧ if 8 < r.length then b.klx t = 64 ∧ b.ksuf t = some (r.drop 8) else b.klx t = r.length := by
  unfold SlotIs
  rw [o.ikey, o.more, o.suffix, o.len]
  by_cases h : 8 < r.length <;> simp [h]

theorem SlotLeads.obs {b : Leaf V} {t : Nat} {k : Key} {r : Bytes} (o : Obs k r) : SlotLeads b t k ↔
    b.ikey t = chunk r ∧ 128 ≤ b.klx t ∧ 8 < r.length := by
  unfold SlotLeads
  rw [o.ikey, o.more, decide_eq_true_iff]

/-- A leaf that a layer may start with. -/
structure LeafStart (b : Leaf V) : Prop where
  perm : PermOK b.perm
  sorted : ∀ i j, i < j → j < size 5 b.perm → b.ikey (get 5 b.perm i) ≤ b.ikey (get 5 b.perm j)
  slots : ∀ j, j < size 5 b.perm → Good b (get 5 b.perm j)
  apart : ∀ i j, i < j → j < size 5 b.perm → ¬ Twin b (get 5 b.perm i) b (get 5 b.perm j)

theorem LeafStart.start {b : Leaf V} (h : LeafStart b) : Chain.Start (newLayer b) :=
  ⟨h.perm, h.sorted, h.slots, h.apart, rfl, rfl, fun x => by simp [newLayer], fun x => by simp [newLayer], fun _ => rfl,
    fun x hx => by unfold newLayer; simp only; rw [upd_ne _ _ _ hx]; rfl, fun _ => rfl, .inr rfl, rfl⟩

/-! ## Twigs -/

theorem twig_start (ik q : Nat) : LeafStart (twigLeaf ik q : Leaf V) := by
  have h1 : size 5 (twigLeaf ik q : Leaf V).perm = 1 := size_makeSorted 1 (by omega)
  have h2 : get 5 (twigLeaf ik q : Leaf V).perm 0 = 0 := get_makeSorted 1 (by omega) 0 (by omega)
  refine ⟨permOK_makeSorted 1 (by omega), fun i j h h' => by omega, ?_, fun i j h h' => by omega⟩
  intro j hj
  rw [h1] at hj
  have : j = 0 := by omega
  subst this
  rw [h2]
  exact .inr ⟨⟨q, rfl⟩, rfl, rfl⟩

theorem twig_says (ik q : Nat) {k : Key} {r : Bytes} (o : Obs k r) :
    leafSays (twigLeaf ik q : Leaf V) k = if 8 < r.length ∧ ik = chunk r then .descend q else .absent := by
  have h1 : size 5 (twigLeaf ik q : Leaf V).perm = 1 := size_makeSorted 1 (by omega)
  have h2 : get 5 (twigLeaf ik q : Leaf V).perm 0 = 0 := get_makeSorted 1 (by omega) 0 (by omega)
  have h3 : SlotLeads (twigLeaf ik q : Leaf V) 0 k ↔ 8 < r.length ∧ ik = chunk r := by
    rw [SlotLeads.obs o]
    show ik = _ ∧ 128 ≤ 128 ∧ _ ↔ _
    omega
  have h4 : (twigLeaf ik q : Leaf V).cell 0 = .layer q := rfl
  unfold leafSays
  rw [h1]
  show ([0].findSome? _).getD _ = _
  simp only [List.findSome?_cons, List.findSome?_nil, h2]
  unfold shown
  rw [h4]
  simp only [h3]
  by_cases hh : 8 < r.length ∧ ik = chunk r
  · simp [hh]
  · simp [hh]

/-! ## The last leaf -/

/-- Slot `t` has the key `e` and the value `v`. -/
structure Ent (b : Leaf V) (t : Nat) (e : Bytes) (v : V) : Prop where
  ikey : b.ikey t = chunk e
  cell : b.cell t = .val v
  klx : b.klx t = if 8 < e.length then 64 else e.length
  ksuf : 8 < e.length → b.ksuf t = some (e.drop 8)

theorem Ent.is {b : Leaf V} {t : Nat} {e : Bytes} {v : V} (h : Ent b t e v) {k : Key} {r : Bytes} (o : Obs k r) :
    SlotIs b t k ↔ r = e := by
  rw [SlotIs.obs o, h.ikey, h.klx]
  constructor
  · rintro ⟨h1, h2⟩
    by_cases hr : 8 < r.length
    · rw [if_pos hr] at h2
      by_cases he : 8 < e.length
      · rw [h.ksuf he] at h2
        exact eq_of_chunk_eq_long r e hr he h1.symm (Option.some.inj h2.2).symm
      · rw [if_neg he] at h2; omega
    · rw [if_neg hr] at h2
      by_cases he : 8 < e.length
      · rw [if_pos he] at h2; omega
      · rw [if_neg he] at h2
        exact eq_of_chunk_eq_short r e (by omega) h2.symm h1.symm
  · rintro rfl
    refine ⟨rfl, ?_⟩
    by_cases hr : 8 < r.length
    · simp only [if_pos hr]; exact ⟨trivial, h.ksuf hr⟩
    · simp only [if_neg hr]

theorem ent_assign (b : Leaf V) (t : Nat) {k : Key} {e : Bytes} (o : Obs k e) (v : V) : Ent (assignFromKey b t k v) t e v := by
  unfold assignFromKey
  rw [o.more]
  by_cases h : 8 < e.length
  · simp only [h, decide_true, if_true]
    exact ⟨by simp only [upd_same]; exact o.ikey, upd_same _ _ _, by simp only [upd_same, if_pos h]; rfl,
      fun _ => by simp only [upd_same]; rw [o.suffix]⟩
  · simp only [h, decide_false, Bool.false_eq_true, if_false]
    exact ⟨by simp only [upd_same]; exact o.ikey, upd_same _ _ _, by simp only [upd_same, if_neg h]; rw [o.len]; omega,
      fun h' => absurd h' h⟩

theorem Ent.assign {b : Leaf V} {t : Nat} {e : Bytes} {v : V} (h : Ent b t e v) {t' : Nat} (ne : t ≠ t') (k : Key) (v' : V) :
    Ent (assignFromKey b t' k v') t e v := by
  unfold assignFromKey
  split
  · exact ⟨by simp only; rw [upd_ne _ _ _ ne]; exact h.ikey, by simp only; rw [upd_ne _ _ _ ne]; exact h.cell,
      by simp only; rw [upd_ne _ _ _ ne]; exact h.klx, fun h' => by simp only; rw [upd_ne _ _ _ ne]; exact h.ksuf h'⟩
  · exact ⟨by simp only; rw [upd_ne _ _ _ ne]; exact h.ikey, by simp only; rw [upd_ne _ _ _ ne]; exact h.cell,
      by simp only; rw [upd_ne _ _ _ ne]; exact h.klx, h.ksuf⟩

theorem Ent.good {b : Leaf V} {t : Nat} {e : Bytes} {v : V} (h : Ent b t e v) : Good b t := by
  refine .inl ⟨⟨v, h.cell⟩, ?_⟩
  rw [h.klx]
  split
  · rename_i h8; exact .inr ⟨rfl, by rw [h.ksuf h8]; rfl⟩
  · left; omega

/-- Two different entries in order that are not both long with the same first eight bytes. -/
theorem two_start {b : Leaf V} {e w : Bytes} {v v' : V} (hp : b.perm = makeSorted24 2) (h0 : Ent b 0 e v) (h1 : Ent b 1 w v')
    (ne : e ≠ w) (ho : chunk e ≤ chunk w) (hl : chunk e = chunk w → ¬ (8 < e.length ∧ 8 < w.length)) : LeafStart b := by
  have hs : size 5 b.perm = 2 := by rw [hp]; exact size_makeSorted 2 (by omega)
  have g0 : get 5 b.perm 0 = 0 := by rw [hp]; exact get_makeSorted 2 (by omega) 0 (by omega)
  have g1 : get 5 b.perm 1 = 1 := by rw [hp]; exact get_makeSorted 2 (by omega) 1 (by omega)
  refine ⟨by rw [hp]; exact permOK_makeSorted 2 (by omega), ?_, ?_, ?_⟩
  · intro i j h h'
    have : i = 0 := by omega
    have : j = 1 := by omega
    subst i j
    rw [g0, g1, h0.ikey, h1.ikey]; exact ho
  · intro j hj
    rw [hs] at hj
    rcases (by omega : j = 0 ∨ j = 1) with rfl | rfl
    · rw [g0]; exact h0.good
    · rw [g1]; exact h1.good
  · intro i j h h'
    have : i = 0 := by omega
    have : j = 1 := by omega
    subst i j
    rw [g0, g1]
    rintro ⟨t1, t2⟩
    rw [h0.ikey, h1.ikey] at t1
    rw [h0.klx, h1.klx] at t2
    have := hl t1
    unfold cls at t2
    by_cases c1 : 8 < e.length <;> by_cases c2 : 8 < w.length
    · exact this ⟨c1, c2⟩
    · simp only [if_pos c1, if_neg c2] at t2
      rw [if_pos (by omega), if_neg (by omega)] at t2; omega
    · simp only [if_pos c2, if_neg c1] at t2
      rw [if_neg (by omega), if_pos (by omega)] at t2; omega
    · simp only [if_neg c2, if_neg c1] at t2
      rw [if_neg (by omega), if_neg (by omega)] at t2
      exact ne (eq_of_chunk_eq_short e w (by omega) t2 t1)

theorem two_says {b : Leaf V} {e w : Bytes} {v v' : V} (hp : b.perm = makeSorted24 2) (h0 : Ent b 0 e v) (h1 : Ent b 1 w v')
    {k : Key} {r : Bytes} (o : Obs k r) :
    leafSays b k = if r = e then .value v else if r = w then .value v' else .absent := by
  have hs : size 5 b.perm = 2 := by rw [hp]; exact size_makeSorted 2 (by omega)
  have g0 : get 5 b.perm 0 = 0 := by rw [hp]; exact get_makeSorted 2 (by omega) 0 (by omega)
  have g1 : get 5 b.perm 1 = 1 := by rw [hp]; exact get_makeSorted 2 (by omega) 1 (by omega)
  unfold leafSays
  rw [hs]
  show ([0, 1].findSome? _).getD _ = _
  simp only [List.findSome?_cons, List.findSome?_nil, g0, g1]
  unfold shown
  rw [h0.cell, h1.cell]
  simp only [h0.is o, h1.is o]
  by_cases c1 : r = e
  · simp [c1]
  · by_cases c2 : r = w
    · subst c2; simp [c1]
    · simp [c1, c2]

theorem alike_iff {ek nk : Key} {e w : Bytes} (oe : Obs ek e) (ow : Obs nk w) :
    alike ek nk = true ↔ chunk e = chunk w ∧ 8 < e.length ∧ 8 < w.length := by
  have hc : ek.compare nk.ikey nk.currentLen = .eq → chunk e = chunk w := by
    intro h1
    unfold Key.compare at h1
    rw [oe.ikey, ow.ikey] at h1
    by_contra hne
    rcases Nat.lt_or_gt_of_ne hne with h | h
    · rw [Nat.compare_eq_lt.2 h] at h1; cases h1
    · rw [Nat.compare_eq_gt.2 h] at h1; cases h1
  have hc' : chunk e = chunk w → 8 < e.length → 8 < w.length → ek.compare nk.ikey nk.currentLen = .eq := by
    intro h1 h2 h3
    unfold Key.compare
    rw [oe.ikey, ow.ikey, Nat.compare_eq_eq.2 h1, oe.len, ow.len]
    show (if 8 < e.length then if w.length ≤ 8 then Ordering.gt else .eq else _) = _
    rw [if_pos h2, if_neg (by omega)]
  unfold alike
  rw [oe.more, ow.more]
  simp only [Bool.and_eq_true, decide_eq_true_iff]
  exact ⟨fun ⟨⟨h1, h2⟩, h3⟩ => ⟨hc h1, h2, h3⟩, fun ⟨h1, h2, h3⟩ => ⟨⟨hc' h1 h2 h3, h2⟩, h3⟩⟩

theorem final_spec {ek nk : Key} {e w : Bytes} (oe : Obs ek e) (ow : Obs nk w) (ne : e ≠ w) (ha : alike ek nk = false) (ev nv : V) :
    LeafStart (finalLeaf ek ev nk nv (ek.compare nk.ikey nk.currentLen)) ∧
      ∀ k r, Obs k r → leafSays (finalLeaf ek ev nk nv (ek.compare nk.ikey nk.currentLen)) k =
        if r = e then .value ev else if r = w then .value nv else .absent := by
  have hn : ¬ (chunk e = chunk w ∧ 8 < e.length ∧ 8 < w.length) := fun h => by
    rw [(alike_iff oe ow).2 h] at ha; cases ha
  have hc : ek.compare nk.ikey nk.currentLen = .lt → chunk e ≤ chunk w := by
    intro h
    unfold Key.compare at h
    rw [oe.ikey, ow.ikey] at h
    by_contra hgt
    rw [Nat.compare_eq_gt.2 (by omega)] at h; cases h
  have hc' : ek.compare nk.ikey nk.currentLen = .gt → chunk w ≤ chunk e := by
    intro h
    unfold Key.compare at h
    rw [oe.ikey, ow.ikey] at h
    by_contra hgt
    rw [Nat.compare_eq_lt.2 (by omega)] at h; cases h
  have hce : ek.compare nk.ikey nk.currentLen = .eq → chunk w = chunk e := by
    intro h
    unfold Key.compare at h
    rw [oe.ikey, ow.ikey] at h
    by_contra hne
    rcases Nat.lt_or_gt_of_ne hne with h' | h'
    · rw [Nat.compare_eq_gt.2 h'] at h; cases h
    · rw [Nat.compare_eq_lt.2 h'] at h; cases h
  generalize ek.compare nk.ikey nk.currentLen = c at *
  have first : ∀ b : Leaf V, b = { assignFromKey (assignFromKey emptyLeaf 0 ek ev) 1 nk nv with perm := makeSorted24 2 } →
      chunk e ≤ chunk w → LeafStart b ∧ ∀ k r, Obs k r → leafSays b k =
        if r = e then .value ev else if r = w then .value nv else .absent := by
    intro b hb ho
    have e0 : Ent b 0 e ev := by
      rw [hb]
      have := (ent_assign (emptyLeaf : Leaf V) 0 oe ev).assign (t' := 1) (by omega) nk nv
      exact ⟨this.ikey, this.cell, this.klx, this.ksuf⟩
    have e1 : Ent b 1 w nv := by
      rw [hb]
      have := ent_assign (assignFromKey (emptyLeaf : Leaf V) 0 ek ev) 1 ow nv
      exact ⟨this.ikey, this.cell, this.klx, this.ksuf⟩
    have hp : b.perm = makeSorted24 2 := by rw [hb]
    exact ⟨two_start hp e0 e1 ne ho (fun h h' => hn ⟨h, h'⟩), fun k r o => two_says hp e0 e1 o⟩
  have second : ∀ b : Leaf V, b = { assignFromKey (assignFromKey emptyLeaf 0 nk nv) 1 ek ev with perm := makeSorted24 2 } →
      chunk w ≤ chunk e → LeafStart b ∧ ∀ k r, Obs k r → leafSays b k =
        if r = e then .value ev else if r = w then .value nv else .absent := by
    intro b hb ho
    have e0 : Ent b 0 w nv := by
      rw [hb]
      have := (ent_assign (emptyLeaf : Leaf V) 0 ow nv).assign (t' := 1) (by omega) ek ev
      exact ⟨this.ikey, this.cell, this.klx, this.ksuf⟩
    have e1 : Ent b 1 e ev := by
      rw [hb]
      have := ent_assign (assignFromKey (emptyLeaf : Leaf V) 0 nk nv) 1 oe ev
      exact ⟨this.ikey, this.cell, this.klx, this.ksuf⟩
    have hp : b.perm = makeSorted24 2 := by rw [hb]
    refine ⟨two_start hp e0 e1 (Ne.symm ne) ho (fun h h' => hn ⟨h.symm, h'.2, h'.1⟩), fun k r o => ?_⟩
    rw [two_says hp e0 e1 o]
    by_cases c1 : r = e
    · subst c1; simp [ne]
    · simp [c1]
  unfold finalLeaf
  cases c with
  | lt => exact first _ rfl (hc rfl)
  | gt => exact second _ rfl (hc' rfl)
  | eq =>
    have := hce rfl
    simp only
    by_cases hl : ek.currentLen ≤ nk.currentLen
    · simp only [hl, decide_true, if_true]; exact first _ rfl (by omega)
    · simp only [hl, decide_false, Bool.false_eq_true, if_false]; exact second _ rfl (by omega)

theorem Obs.shift {k : Key} {d : Bytes} {n : Nat} (h : k.Sees d n) : Obs k.shift ((d.drop (8 * n)).drop 8) := by
  have := Obs.of_sees h.shift
  rwa [List.drop_drop, show 8 * n + 8 = 8 * (n + 1) by omega]

/-- What the leaf at position `i` says about a key of which `r` is left there. -/
def layerSays (qs : List Nat) (e w : Bytes) (ev nv : V) (i : Nat) (r : Bytes) : Out V :=
  match qs[i + 1]? with
  | some q => if 8 < r.length ∧ r.take 8 = (e.drop (8 * i)).take 8 then .descend q else .absent
  | none => if r = e.drop (8 * i) then .value ev else if r = w.drop (8 * i) then .value nv else .absent

/-- The new layers are well formed, share the bytes that the two keys have in common and say the right things. -/
theorem leaves_spec (ev nv : V) : ∀ (qs : List Nat) (ek nk : Key) (fe fw : Bytes) (ne nw : Nat), ek.Sees fe ne → nk.Sees fw nw →
    fe.drop (8 * ne) ≠ fw.drop (8 * nw) → (leavesFor ek ev nk nv qs).length = qs.length → ∀ i, i < qs.length →
    ∃ b, (leavesFor ek ev nk nv qs)[i]? = some b ∧ LeafStart b ∧
      (∀ k r, Obs k r → leafSays b k = layerSays qs (fe.drop (8 * ne)) (fw.drop (8 * nw)) ev nv i r) ∧
      (fe.drop (8 * ne)).take (8 * i) = (fw.drop (8 * nw)).take (8 * i) ∧
      (i ≠ 0 → 8 * i < (fe.drop (8 * ne)).length ∧ 8 * i < (fw.drop (8 * nw)).length)
  | [], _, _, _, _, _, _, _, _, _, _, i, hi => absurd hi (Nat.not_lt_zero i)
  | [q], ek, nk, fe, fw, ne, nw, he, hw, hne, hl, i, hi => by
    have : i = 0 := by simpa using hi
    subst this
    unfold leavesFor at hl ⊢
    cases ha : alike ek nk with
    | true => rw [ha] at hl; cases hl
    | false =>
      have := final_spec (Obs.of_sees he) (Obs.of_sees hw) hne ha ev nv
      refine ⟨_, rfl, this.1, ?_, by simp, by simp⟩
      intro k r o
      rw [this.2 k r o]
      unfold layerSays
      simp
  | q :: q' :: qs, ek, nk, fe, fw, ne, nw, he, hw, hne, hl, i, hi => by
    unfold leavesFor at hl ⊢
    cases ha : alike ek nk with
    | false => rw [ha] at hl; cases hl
    | true =>
      rw [ha, if_pos rfl] at hl
      simp only [if_true]
      obtain ⟨hch, h8, h8'⟩ := (alike_iff (Obs.of_sees he) (Obs.of_sees hw)).1 ha
      have htake := take_eq_of_chunk_eq _ _ (by omega) (by omega) hch
      have hdrop : ∀ (f : Bytes) (n : Nat), f.drop (8 * (n + 1)) = (f.drop (8 * n)).drop 8 := by
        intro f n; rw [List.drop_drop]; rfl
      generalize hE : fe.drop (8 * ne) = E at *
      generalize hW : fw.drop (8 * nw) = W at *
      have hne' : fe.drop (8 * (ne + 1)) ≠ fw.drop (8 * (nw + 1)) := by
        rw [hdrop, hdrop, hE, hW]
        intro h
        exact hne (by rw [← List.take_append_drop 8 E, ← List.take_append_drop 8 W, htake, h])
      have ih := leaves_spec ev nv (q' :: qs) ek.shift nk.shift fe fw (ne + 1) (nw + 1) he.shift hw.shift hne'
        (by simpa using hl)
      rw [hdrop, hdrop, hE, hW] at ih
      have hEe := he.ikey_eq
      rw [hE] at hEe
      cases i with
      | zero =>
        refine ⟨_, rfl, twig_start _ _, ?_, by simp, by simp⟩
        intro k r o
        rw [twig_says _ _ o]
        unfold layerSays
        simp only [List.getElem?_cons_succ, List.getElem?_cons_zero, Nat.mul_zero, List.drop_zero, hEe]
        by_cases hr : 8 < r.length
        · by_cases hc : chunk E = chunk r
          · have := take_eq_of_chunk_eq _ _ (by omega) (by omega) hc
            simp [hr, hc, this]
          · have : r.take 8 ≠ E.take 8 := by
              intro h
              apply hc
              rw [← chunk_take E (by omega), ← chunk_take r (by omega), h]
            simp [hr, hc, this]
        · simp [hr]
      | succ i =>
        obtain ⟨b, h1, h2, h3, h4, h5⟩ := ih i (by simpa using hi)
        refine ⟨b, by simpa using h1, h2, ?_, ?_, ?_⟩
        · intro k r o
          rw [h3 k r o]
          unfold layerSays
          simp only [List.getElem?_cons_succ, List.drop_drop, show 8 + 8 * i = 8 * (i + 1) by omega]
        · rw [show 8 * (i + 1) = 8 + 8 * i by omega, List.take_add, List.take_add, htake, h4]
        · intro _
          simp only [List.length_drop] at h5
          by_cases hi0 : i = 0
          · subst hi0; omega
          · have := h5 hi0; omega

end Verif.Forest
