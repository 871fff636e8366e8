import Verif.Proof.TreeProp2
set_option linter.unusedSimpArgs false
set_option linter.unusedVariables false
/-!
# Splitting a leaf
-/
namespace Verif.Tree
open Verif.Spec (Bytes chunk lenClass)
open Verif.Internode (Arr upd insertKeyAndChild splitInto vkey vchild)
open Verif.Perm (size get back backAtOffset insertFromBack swapFreeSlots setSize makeSorted24 params24)
variable {V : Type}
variable {t : Tree V} {G : Ghost}

/-- Some leaf of the layer `pfx` holds the entry `e`. -/
def HasE (t : Tree V) (G : Ghost) (pfx : Bytes) (e : Ent V) : Prop :=
  ∃ x i j, G x = some i ∧ t.kind x = some .leaf ∧ i.pfx.bytes = pfx ∧ j < (t.body x).n ∧ (t.body x).ent j = e

theorem has_iff {d : Bytes} {v : V} : Has t G d v ↔ ∃ pfx e, HasE t G pfx e ∧ e.cell = .val v ∧ EntKey pfx e d := by
  constructor
  · rintro ⟨x, i, j, h1, h2, h3, h4, h5⟩
    exact ⟨i.pfx.bytes, _, ⟨x, i, j, h1, h2, rfl, h3, rfl⟩, h4, h5⟩
  · rintro ⟨pfx, e, ⟨x, i, j, h1, h2, h3, h4, h5⟩, h6, h7⟩
    subst h3; subst h5
    exact ⟨x, i, j, h1, h2, h4, h6, h7⟩

theorem Frame.hasE {t t' : Tree V} {G G' : Ghost} (h : Frame t G t' G') (d1 : ∀ x, (∃ i, G x = some i) ↔ x < t.fresh)
    (d2 : ∀ x, (∃ i, G' x = some i) ↔ x < t'.fresh) {pfx : Bytes} {e : Ent V} : HasE t' G' pfx e ↔ HasE t G pfx e := by
  constructor
  · rintro ⟨x, i, j, h1, h2, h3, h4, h5⟩
    rw [h.body] at h4 h5
    have hx : x < t.fresh := by
      by_contra c
      have := (h.new x (by omega) ((d2 x).1 ⟨i, h1⟩)).1
      rw [h2] at this; cases this
    obtain ⟨i', hi'⟩ := (d1 x).2 hx
    have hk : t.kind x = some .leaf := by rw [← h.kind x hx]; exact h2
    have := h.leafG x i' hk hi'
    rw [h1] at this; cases this
    exact ⟨x, i, j, hi', hk, h3, h4, h5⟩
  · rintro ⟨x, i, j, h1, h2, h3, h4, h5⟩
    exact ⟨x, i, j, h.leafG x i h2 h1, by rw [h.kind x ((d1 x).1 ⟨i, h1⟩)]; exact h2, h3, by rw [h.body]; exact h4,
      by rw [h.body]; exact h5⟩

/-- The state after the leaf `l` was split at `pos` and the new leaf linked. -/
theorem split_pend {l : Nat} {i : Info} (h : Inv t G G (fun x => x = l)) (hl : G l = some i) (hk : t.kind l = some .leaf)
    {r : Nat} (hr : t.fresh = r)
    {pos : Nat} (h0 : 0 < pos) (hp : pos < (t.body l).n) (hlo : i.lo < ((t.body l).ent pos).ikey)
    (hcond : ((t.body l).ent (pos - 1)).ikey < ((t.body l).ent pos).ikey ∨ ltHi ((t.body l).ent pos).ikey i.hi)
    (nx pv : Nat → Option Nat)
    (nx1 : nx l = some r) (nx2 : nx r = t.next l) (nx3 : ∀ y, y ≠ l → y ≠ r → nx y = t.next y)
    (pv1 : pv r = some l) (pv2 : ∀ q, t.next l = some q → pv q = some r)
    (pv3 : ∀ y, y ≠ r → t.next l ≠ some y → pv y = t.prev y) :
    let s := ((t.body l).ent pos).ikey
    let t' : Tree V := { t with
      kind := upd t.kind r (some .leaf), rootf := upd t.rootf r false, locked := upd t.locked r true,
      parent := upd t.parent r none, next := nx, prev := pv,
      body := upd (upd t.body r (splitLeaf (t.body l) pos).2.1) l (splitLeaf (t.body l) pos).1, fresh := r + 1 }
    let G' : Ghost := upd (upd G l (some ⟨i.pfx, i.lo, some s⟩)) r (some ⟨i.pfx, s, i.hi⟩)
    Pend t' G' l r s ⟨i.pfx, i.lo, some s⟩ ⟨i.pfx, s, i.hi⟩ ∧ view G' l r = G ∧
      (∀ pfx e, HasE t' G' pfx e ↔ HasE t G pfx e) := by
  intro s t' G'
  have hll := h.lt hl
  have hB := h.body l i hk hl
  obtain ⟨S1, S2, S3, S4, S5, S6, S7, S8, S9, S10, S11⟩ := splitLeaf_spec hB.perm h0 hp
  obtain ⟨B1, B2⟩ := bodyOK_split hB h0 hp
  have hLk := h.link l i hk hl
  have hslo : leHi s i.hi := hB.hi pos hp
  have hlr : l ≠ r := by omega
  have hG'r : G' r = some ⟨i.pfx, s, i.hi⟩ := updS
  have hG'l : G' l = some ⟨i.pfx, i.lo, some s⟩ := by show upd _ r _ l = _; rw [updN hlr]; exact updS
  have hG' : ∀ y, y ≠ l → y ≠ r → G' y = G y := by
    intro y h1 h2; show upd _ r _ y = _; rw [updN h2, updN h1]
  have hGr : G r = none := by
    cases hh : G r with
    | none => rfl
    | some ii => have := h.lt hh; omega
  have hview : view G' l r = G := by
    funext y
    unfold view
    by_cases e : y = r
    · subst e; simp [hGr]
    · rw [if_neg e]
      by_cases e2 : y = l
      · subst e2; simp [hG'l, hG'r, hl]
      · rw [if_neg e2]; exact hG' y e2 e
  have hlb : t'.body l = (splitLeaf (t.body l) pos).1 := updS
  have hrb : t'.body r = (splitLeaf (t.body l) pos).2.1 := by
    show upd _ l _ r = _; rw [updN hlr.symm]; exact updS
  have hyb : ∀ y, y ≠ l → y ≠ r → t'.body y = t.body y := by
    intro y h1 h2; show upd _ l _ y = _; rw [updN h1, updN h2]
  have hkr : t'.kind r = some .leaf := updS
  have hky : ∀ y, y ≠ r → t'.kind y = t.kind y := fun y hy => updN hy
  have hmono : ∀ q iq, G q = some iq → ∃ iq', G' q = some iq' ∧ iq'.pfx = iq.pfx := by
    intro q iq hq
    by_cases e : q = l
    · subst e; rw [hl] at hq; cases hq; exact ⟨_, hG'l, rfl⟩
    · exact ⟨iq, by rw [hG' q e (by have := h.lt hq; omega)]; exact hq, rfl⟩
  have hh : ∀ y, y ≠ r → Verif.Tree.hgt t' y = Verif.Tree.hgt t y := by
    intro y hy
    show (match t'.kind y with | some .inode => t.height y + 1 | _ => 0) = _
    rw [hky y hy]; rfl
  have hhr : Verif.Tree.hgt t' r = 0 := hgt_leaf hkr
  have hkl' : t'.kind l = some .leaf := by rw [hky l hlr]; exact hk
  -- the leaf is not its own neighbour
  have hself : t.next l ≠ some l := by
    intro e
    obtain ⟨iy, N⟩ := hLk.next l e
    have hd := N.dom; rw [hl] at hd; cases hd
    have := N.lo
    rw [this] at hslo
    simp only [leHi_some] at hslo
    have : i.lo < s := hlo
    omega
  have hnr : ∀ y z iy, G y = some iy → t.kind y = some .leaf → t.next y = some z → z ≠ r := by
    intro y z iy hy hk hz
    obtain ⟨iz, N⟩ := (h.link y iy hk hy).next z hz
    have := h.lt N.dom; omega
  refine ⟨⟨?_, hG'l, hG'r, rfl, rfl, rfl, hlr, ?_, ?_, ?_⟩, hview, ?_⟩
  · rw [hview]
    constructor
    · intro y
      show _ ↔ y < r + 1
      by_cases e : y = r
      · subst e; exact ⟨fun _ => by omega, fun _ => ⟨_, hG'r⟩⟩
      · by_cases e2 : y = l
        · subst e2; exact ⟨fun _ => by omega, fun _ => ⟨_, hG'l⟩⟩
        · rw [hG' y e2 e, h.dom y]; omega
    · intro y iy hy; have := h.lt hy; show y < r + 1; omega
    · intro y hy
      have hy : y < r + 1 := hy
      by_cases e : y = r
      · subst e; rw [hkr]; simp
      · rw [hky y e]; exact h.kind y (by omega)
    · intro y hy
      have hy : y < r + 1 := hy
      show _ < r + 1
      by_cases e : y = r
      · subst e; rw [hhr]; omega
      · rw [hh y e]; have := h.hgt y (by omega); omega
    · intro y iy hy
      by_cases e : y = r
      · subst e; rw [hG'r] at hy; cases hy; exact h.pfx8 l i hl
      · by_cases e2 : y = l
        · subst e2; rw [hG'l] at hy; cases hy; exact h.pfx8 y i hl
        · rw [hG' y e2 e] at hy; exact h.pfx8 y iy hy
    · intro y iy hy
      by_cases e : y = r
      · subst e; rw [hG'r] at hy; cases hy; exact hslo
      · by_cases e2 : y = l
        · subst e2; rw [hG'l] at hy; cases hy; simp only [leHi_some]; exact Nat.le_of_lt hlo
        · rw [hG' y e2 e] at hy; exact h.lohi y iy hy
    · intro y iy hkk hy
      by_cases e : y = r
      · subst e; rw [hG'r] at hy; cases hy; rw [hrb]; exact B2
      · by_cases e2 : y = l
        · subst e2; rw [hG'l] at hy; cases hy; rw [hlb]; exact B1
        · rw [hG' y e2 e] at hy; rw [hyb y e2 e]; exact h.body y iy (by rw [← hky y e]; exact hkk) hy
    · intro y iy hkk hy
      by_cases e : y = r
      · subst e; rw [hG'r] at hy; cases hy; rw [hrb]
        intro j hj q hq
        have hj : j < (t.body l).n - pos := by rw [← S2]; exact hj
        rw [S6 j hj] at hq ⊢
        exact (h.layer l i hk hl).mono hmono (pos + j) (by omega) q hq
      · by_cases e2 : y = l
        · subst e2; rw [hG'l] at hy; cases hy; rw [hlb]
          intro j hj q hq
          have hj : j < pos := by rw [← S1]; exact hj
          rw [S5 j hj] at hq ⊢
          exact (h.layer y i hk hl).mono hmono j (by omega) q hq
        · rw [hG' y e2 e] at hy; rw [hyb y e2 e]
          exact (h.layer y iy (by rw [← hky y e]; exact hkk) hy).mono hmono
    · intro y iy hkk hy
      by_cases e : y = r
      · subst e; rw [hG'r] at hy; cases hy
        constructor
        · intro q hq
          have hq : nx y = some q := hq
          rw [nx2] at hq
          obtain ⟨iq, N⟩ := hLk.next q hq
          have hql : q ≠ l := by intro e; subst e; exact hself hq
          have hqr : q ≠ y := hnr l q i hl hk hq
          refine ⟨iq, by rw [hG' q hql hqr]; exact N.dom, by rw [hky q hqr]; exact N.kind, N.pfx, N.lo, pv2 q hq, ?_⟩
          intro T
          apply N.tight
          rw [hrb] at T
          rcases T with T | ⟨j, hj, T⟩
          · exact Or.inr ⟨pos, hp, T⟩
          · have hj : j < (t.body l).n - pos := by rw [← S2]; exact hj
            rw [S6 j hj] at T
            exact Or.inr ⟨pos + j, by omega, T⟩
        · intro hq
          have hq : nx y = none := hq
          rw [nx2] at hq
          exact hLk.nonext hq
        · intro w hw
          have hw : pv y = some w := hw
          rw [pv1] at hw; cases hw
          exact ⟨nx1, hkl', _, hG'l⟩
        · intro _
          rw [hrb]
          exact ⟨S10, by rw [S2]; omega, S11⟩
        · intro hw
          have hw : pv y = none := hw
          rw [pv1] at hw; cases hw
      · by_cases e2 : y = l
        · subst e2; rw [hG'l] at hy; cases hy
          constructor
          · intro q hq
            have hq : nx y = some q := hq
            rw [nx1] at hq; cases hq
            refine ⟨_, hG'r, hkr, rfl, rfl, pv1, ?_⟩
            intro T
            rw [hlb] at T
            rcases T with T | ⟨j, hj, T⟩
            · have : s = i.lo := Option.some.inj T
              have : i.lo < s := hlo
              omega
            · have hj : j < pos := by rw [← S1]; exact hj
              rw [S5 j hj] at T
              have T : s = ((t.body y).ent j).ikey := Option.some.inj T
              rcases hcond with c | c
              · have : ((t.body y).ent j).ikey ≤ ((t.body y).ent (pos - 1)).ikey := by
                  by_cases e : j = pos - 1
                  · subst e; exact Nat.le_refl _
                  · exact hB.sorted j (pos - 1) (by omega) (by omega)
                have : ((t.body y).ent (pos - 1)).ikey < s := c
                omega
              · exact c
          · intro hq
            have hq : nx y = none := hq
            rw [nx1] at hq; cases hq
          · intro w hw
            have hw : pv y = some w := hw
            rw [pv3 y e hself] at hw
            obtain ⟨w1, w2, iw, w3⟩ := hLk.prev w hw
            have hwl : w ≠ y := by intro e; subst e; exact hself w1
            have hwr : w ≠ r := by have := h.lt w3; omega
            exact ⟨by show nx w = _; rw [nx3 w hwl hwr]; exact w1, by rw [hky w hwr]; exact w2, iw, by rw [hG' w hwl hwr]; exact w3⟩
          · intro hw
            have hw : pv y ≠ none := hw
            rw [pv3 y e hself] at hw
            obtain ⟨a1, a2, a3⟩ := hLk.slot0 hw
            rw [hlb]
            exact ⟨by rw [S8 0 (by omega)]; exact a1, by rw [S1]; exact h0, by rw [S9]; exact a3⟩
          · intro hw
            have hw : pv y = none := hw
            rw [pv3 y e hself] at hw
            exact hLk.noprev hw
        · rw [hG' y e2 e] at hy
          have hk' : t.kind y = some .leaf := by rw [← hky y e]; exact hkk
          have L := h.link y iy hk' hy
          constructor
          · intro z hz
            have hz : nx y = some z := hz
            rw [nx3 y e2 e] at hz
            obtain ⟨iz, N⟩ := L.next z hz
            have hzr := hnr y z iy hy hk' hz
            have hzq : t.next l ≠ some z := by
              intro e3
              obtain ⟨iz', N'⟩ := hLk.next z e3
              have := N'.prev
              rw [N.prev] at this
              exact e2 (Option.some.inj this)
            have hpz : t'.prev z = some y := by show pv z = _; rw [pv3 z hzr hzq]; exact N.prev
            by_cases e3 : z = l
            · subst e3
              have hd := N.dom; rw [hl] at hd; cases hd
              refine ⟨_, hG'l, hkl', N.pfx, N.lo, hpz, ?_⟩
              intro _; simp only [ltHi_some]; exact hlo
            · refine ⟨iz, by rw [hG' z e3 hzr]; exact N.dom, by rw [hky z hzr]; exact N.kind, N.pfx, N.lo, hpz, ?_⟩
              intro T
              rw [hyb y e2 e] at T
              exact N.tight T
          · intro hz
            have hz : nx y = none := hz
            rw [nx3 y e2 e] at hz
            exact L.nonext hz
          · intro w hw
            have hw : pv y = some w := hw
            by_cases e3 : t.next l = some y
            · rw [pv2 y e3] at hw; cases hw
              exact ⟨by show nx r = _; rw [nx2]; exact e3, hkr, _, hG'r⟩
            · rw [pv3 y e e3] at hw
              obtain ⟨w1, w2, iw, w3⟩ := L.prev w hw
              have hwl : w ≠ l := by intro e4; subst e4; exact e3 w1
              have hwr : w ≠ r := by have := h.lt w3; omega
              exact ⟨by show nx w = _; rw [nx3 w hwl hwr]; exact w1, by rw [hky w hwr]; exact w2, iw, by rw [hG' w hwl hwr]; exact w3⟩
          · intro hw
            have hw : pv y ≠ none := hw
            rw [hyb y e2 e]
            by_cases e3 : t.next l = some y
            · apply L.slot0
              obtain ⟨iy', N⟩ := hLk.next y e3
              rw [N.prev]; simp
            · rw [pv3 y e e3] at hw
              exact L.slot0 hw
          · intro hw
            have hw : pv y = none := hw
            by_cases e3 : t.next l = some y
            · rw [pv2 y e3] at hw; cases hw
            · rw [pv3 y e e3] at hw
              exact L.noprev hw
    · intro y iy hkk hy
      have e : y ≠ r := by intro e; subst e; rw [hkr] at hkk; cases hkk
      have e2 : y ≠ l := by intro e; subst e; rw [hkl'] at hkk; cases hkk
      rw [hG' y e2 e] at hy
      refine (h.inode y iy (by rw [← hky y e]; exact hkk) hy).congr ?_ ?_ (hh y e)
      · refine Or.imp id fun hp => ?_
        show upd t.parent r none y = none
        rw [updN e]; exact hp
      · intro c ic h1 h2
        have ec : c ≠ r := by have := h.lt h1; omega
        exact ⟨h1, by show upd t.parent r none c = some y; rw [updN ec]; exact h2, hh c ec⟩
    · intro y iy hy
      have e : y ≠ r := by have := h.lt hy; omega
      have U := h.up y iy hy
      constructor
      · intro p hp
        have hp : upd t.parent r none y = some p := hp
        rw [updN e] at hp
        obtain ⟨ip, u1, u2, u3⟩ := U.child p hp
        have ep : p ≠ r := by have := h.lt u1; omega
        have ep2 : p ≠ l := by intro e; subst e; rw [hk] at u2; cases u2
        exact ⟨ip, by rw [hG' p ep2 ep]; exact u1, by rw [hky p ep]; exact u2, u3⟩
      · intro hp
        have hp : upd t.parent r none y = none := hp
        rw [updN e] at hp
        obtain ⟨u1, u2⟩ := U.top hp
        exact ⟨by show upd t.rootf r false y = true; rw [updN e]; exact u1, u2⟩
    · obtain ⟨ii, r1, r2, r3⟩ := h.root
      have er : t.root ≠ r := by have := h.lt r1; omega
      exact ⟨ii, r1, r2, by show upd t.parent r none t.root = none; rw [updN er]; exact r3⟩
    · intro y hy
      have hy : y < r + 1 := hy
      show upd t.locked r true y = true ↔ _
      by_cases e : y = r
      · subst e; rw [updS]; simp
      · rw [updN e, h.locks y (by omega)]; simp [e]
  · rw [hhr, hgt_leaf hkl']
  · rw [hkr, hkl']
  · intro hx; rw [hkl'] at hx; cases hx
  · intro pfx e
    constructor
    · rintro ⟨x, ix, j, h1, h2, h3, h4, h5⟩
      by_cases e1 : x = r
      · subst e1; rw [hG'r] at h1; cases h1; rw [hrb] at h4 h5
        have hj : j < (t.body l).n - pos := by rw [← S2]; exact h4
        exact ⟨l, i, pos + j, hl, hk, h3, by omega, by rw [← S6 j hj]; exact h5⟩
      · by_cases e2 : x = l
        · subst e2; rw [hG'l] at h1; cases h1; rw [hlb] at h4 h5
          have hj : j < pos := by rw [← S1]; exact h4
          exact ⟨x, i, j, hl, hk, h3, by omega, by rw [← S5 j hj]; exact h5⟩
        · rw [hG' x e2 e1] at h1; rw [hky x e1] at h2; rw [hyb x e2 e1] at h4 h5
          exact ⟨x, ix, j, h1, h2, h3, h4, h5⟩
    · rintro ⟨x, ix, j, h1, h2, h3, h4, h5⟩
      have e1 : x ≠ r := by have := h.lt h1; omega
      by_cases e2 : x = l
      · subst e2; rw [hl] at h1; cases h1
        by_cases c : j < pos
        · exact ⟨x, _, j, hG'l, hkl', h3, by rw [hlb, S1]; exact c, by rw [hlb, S5 j c]; exact h5⟩
        · have hj : j - pos < (t.body x).n - pos := by omega
          refine ⟨r, _, j - pos, hG'r, hkr, h3, by rw [hrb, S2]; exact hj, ?_⟩
          rw [hrb, S6 _ hj, show pos + (j - pos) = j by omega]; exact h5
      · exact ⟨x, ix, j, by rw [hG' x e2 e1]; exact h1, by rw [hky x e1]; exact h2, h3, by rw [hyb x e2 e1]; exact h4,
          by rw [hyb x e2 e1]; exact h5⟩

/-! ## At most one leaf of a layer is responsible for a chunk -/

theorem Inv.up_child {E : Ghost} {lk} (h : Inv t G G lk) {x p : Nat} {ix : Info} (hx : G x = some ix) (hp : t.parent x = some p) :
    ∃ ip j, G p = some ip ∧ t.kind p = some .inode ∧ j ≤ (t.arr p).nkeys ∧ InodeOK t G p (t.arr p) ip ∧
      ChildOK t G p (t.arr p) ip j x ix := by
  obtain ⟨ip, hip, hkp, j, hj, hc⟩ := (h.up x ix hx).child p hp
  have hin := h.inode p ip hkp hip
  obtain ⟨c, ic, hch⟩ := hin.child j hj
  have : c = x := by have := hch.eq; rw [hc] at this; exact (Option.some.inj this).symm
  subst this
  have hd := hch.dom
  rw [hx] at hd; cases hd
  exact ⟨ip, j, hip, hkp, hj, hin, hch⟩

theorem Inv.top_above {lk} (h : Inv t G G lk) : ∀ d x i, G x = some i → t.fresh - Verif.Tree.hgt t x ≤ d →
    ∃ r ir, G r = some ir ∧ ir.pfx = i.pfx ∧ t.parent r = none ∧ Verif.Tree.hgt t x ≤ Verif.Tree.hgt t r := by
  intro d
  induction d with
  | zero => intro x i hx hd; have := h.hgt x (h.lt hx); omega
  | succ d ih =>
    intro x i hx hd
    have hlt := h.hgt x (h.lt hx)
    cases hp : t.parent x with
    | none => exact ⟨x, i, hx, rfl, hp, Nat.le_refl _⟩
    | some p =>
      obtain ⟨ip, j, h1, h2, h3, h4, h5⟩ := h.up_child (E := G) hx hp
      have hh := h5.hgt
      obtain ⟨r, ir, g1, g2, g3, g4⟩ := ih p ip h1 (by omega)
      exact ⟨r, ir, g1, by rw [g2, ← h5.pfx], g3, by omega⟩

theorem InodeOK.sub {x : Nat} {a : Arr (Option Nat)} {ip ic : Info} {j c : Nat} (h : InodeOK t G x a ip)
    (hc : ChildOK t G x a ip j c ic) (hj : j ≤ a.nkeys) {ik : Nat} (h1 : ic.lo ≤ ik) (h2 : ltHi ik ic.hi) :
    ip.lo ≤ ik ∧ ltHi ik ip.hi := by
  rw [hc.lo] at h1
  rw [hc.hi] at h2
  unfold clo at h1
  unfold chi at h2
  constructor
  · by_cases e : j = 0
    · rw [if_pos e] at h1; exact h1
    · rw [if_neg e] at h1; have := h.klo (j - 1) (by omega); omega
  · by_cases e : j = a.nkeys
    · rw [if_pos e] at h2; exact h2
    · rw [if_neg e] at h2
      simp only [ltHi_some] at h2
      intro z hz
      have := h.khi j (by omega) z hz
      omega

theorem InodeOK.sep {x : Nat} {a : Arr (Option Nat)} {ip ic ic' : Info} {j j' c c' : Nat} (h : InodeOK t G x a ip)
    (hc : ChildOK t G x a ip j c ic) (hc' : ChildOK t G x a ip j' c' ic') (hj : j < j') (hj' : j' ≤ a.nkeys) {ik : Nat}
    (h2 : ltHi ik ic.hi) (h1 : ic'.lo ≤ ik) : False := by
  rw [hc'.lo] at h1
  rw [hc.hi] at h2
  unfold clo at h1
  unfold chi at h2
  rw [if_neg (by omega)] at h1 h2
  simp only [ltHi_some] at h2
  by_cases e : j = j' - 1
  · subst e; omega
  · have := h.sorted j (j' - 1) (by omega) (by omega); omega

theorem node_unique {lk} (h : Inv t G G lk) (ru : RU t G) {ik : Nat} : ∀ d x y ix iy, G x = some ix → G y = some iy →
    hgt t x = hgt t y → t.fresh - hgt t x ≤ d → ix.pfx = iy.pfx → ix.lo ≤ ik → ltHi ik ix.hi → iy.lo ≤ ik →
    ltHi ik iy.hi → x = y := by
  intro d
  induction d with
  | zero => intro x y ix iy hx _ _ hd; have := h.hgt x (h.lt hx); omega
  | succ d ih =>
    intro x y ix iy hx hy hh hd hp hx1 hx2 hy1 hy2
    have hlt := h.hgt x (h.lt hx)
    cases hpx : t.parent x with
    | none =>
      cases hpy : t.parent y with
      | none => exact ru x y ix iy hx hy hpx hpy hp
      | some py =>
        exfalso
        obtain ⟨ip, j, h1, h2, h3, h4, h5⟩ := h.up_child (E := G) hy hpy
        obtain ⟨r, ir, g1, g2, g3, g4⟩ := h.top_above _ py ip h1 (Nat.le_refl _)
        have := ru x r ix ir hx g1 hpx g3 (by rw [g2, ← h5.pfx, hp])
        subst this
        have := h5.hgt; omega
    | some px =>
      obtain ⟨ip, j, h1, h2, h3, h4, h5⟩ := h.up_child (E := G) hx hpx
      cases hpy : t.parent y with
      | none =>
        exfalso
        obtain ⟨r, ir, g1, g2, g3, g4⟩ := h.top_above _ px ip h1 (Nat.le_refl _)
        have := ru y r iy ir hy g1 hpy g3 (by rw [g2, ← h5.pfx, hp])
        subst this
        have := h5.hgt; omega
      | some py =>
        obtain ⟨ip', j', h1', h2', h3', h4', h5'⟩ := h.up_child (E := G) hy hpy
        have e1 := h5.hgt
        have e2 := h5'.hgt
        obtain ⟨a1, a2⟩ := h4.sub h5 h3 hx1 hx2
        obtain ⟨b1, b2⟩ := h4'.sub h5' h3' hy1 hy2
        have : px = py := ih px py ip ip' h1 h1' (by omega) (by omega) (by rw [← h5.pfx, ← h5'.pfx, hp]) a1 a2 b1 b2
        subst this
        rw [h1] at h1'; cases h1'
        rcases Nat.lt_trichotomy j j' with c | c | c
        · exact (h4.sep h5 h5' c h3' hx2 hy1).elim
        · subst c
          have := h5.eq; rw [h5'.eq] at this; exact (Option.some.inj this).symm
        · exact (h4.sep h5' h5 c h3 hy2 hx1).elim

theorem leaf_unique {lk} (h : Inv t G G lk) (ru : RU t G) {ik x y : Nat} {ix iy : Info} (hx : G x = some ix)
    (hy : G y = some iy) (kx : t.kind x = some .leaf) (ky : t.kind y = some .leaf) (hp : ix.pfx = iy.pfx) (hx1 : ix.lo ≤ ik)
    (hx2 : ltHi ik ix.hi) (hy1 : iy.lo ≤ ik) (hy2 : ltHi ik iy.hi) : x = y :=
  node_unique h ru _ x y ix iy hx hy (by rw [hgt_leaf kx, hgt_leaf ky]) (Nat.le_refl _) hp hx1 hx2 hy1 hy2

/-! ## The whole split operation -/

/-- A leaf without left-overs: distinct chunks, all inside a non-empty range. -/
structure Strict (b : Leaf V) (i : Info) : Prop where
  lt : ∀ j j', j < j' → j' < b.n → (b.ent j).ikey < (b.ent j').ikey
  hi : ∀ j, j < b.n → ltHi (b.ent j).ikey i.hi
  ne : ltHi i.lo i.hi

def AllStrict (t : Tree V) (G : Ghost) : Prop := ∀ x i, t.kind x = some .leaf → G x = some i → Strict (t.body x) i

/-- No leaf holds a chunk equal to its upper bound. -/
def HiStrict (t : Tree V) (G : Ghost) : Prop := ∀ x i, t.kind x = some .leaf → G x = some i → ∀ j, j < (t.body x).n →
  ltHi ((t.body x).ent j).ikey i.hi

/-- Every leaf has a non-empty range. -/
def AllNe (t : Tree V) (G : Ghost) : Prop := ∀ x i, t.kind x = some .leaf → G x = some i → ltHi i.lo i.hi

/-- Outcome of splitting a leaf of the layer `lay` for the chunk `ik`. -/
structure SplitOut (t : Tree V) (G : Ghost) (lay : Layer) (ik B : Nat) (t' : Tree V) (G' : Ghost) : Prop where
  inv : Inv0 t' G'
  ru : RU t G → RU t' G'
  ents : ∀ pfx e, HasE t' G' pfx e ↔ HasE t G pfx e
  count : t'.count = t.count
  fresh : t.fresh ≤ t'.fresh
  kind : ∀ x, x < t.fresh → t'.kind x = t.kind x
  ghost : ∀ x i, G x = some i → ∃ i', G' x = some i' ∧ i'.pfx = i.pfx
  back : ∀ x i', G' x = some i' → ∃ y iy, G y = some iy ∧ iy.pfx = i'.pfx
  hgtB : ∀ x, x < t'.fresh → hgt t' x ≤ B + 1
  room : ∃ y iy, G' y = some iy ∧ t'.kind y = some .leaf ∧ iy.pfx = lay ∧ iy.lo ≤ ik ∧ ltHi ik iy.hi ∧ (t'.body y).n < 24
  strict : AllStrict t G → AllStrict t' G'
  low : ∀ x i, G x = some i → ∃ i', G' x = some i' ∧ i'.pfx = i.pfx ∧ i'.lo = i.lo ∧ ∀ z, ltHi z i'.hi → ltHi z i.hi
  anti : HiStrict t' G' → HiStrict t G
  ne : HiStrict t G → AllNe t G → AllNe t' G'

theorem handleLeafSplit_ok {l : Nat} {i : Info} (h : Inv t G G (fun x => x = l)) (hl : G l = some i)
    (hk : t.kind l = some .leaf) (hfull : (t.body l).n = 24) {ik : Nat} (hlo : i.lo ≤ ik) (hhi : ltHi ik i.hi) {B : Nat}
    (hB : ∀ x, x < t.fresh → hgt t x ≤ B) (hB64 : B < 64) :
    ∃ t' G', handleLeafSplit t l ik = .ok t' ∧ SplitOut t G i.pfx ik B t' G' := by
  have hbd := h.body l i hk hl
  have hll := h.lt hl
  obtain ⟨pos, c1, c2, c3, c4, c5⟩ := calcSplitPoint_spec hbd hfull ik hlo hhi
  have hcond : ((t.body l).ent (pos - 1)).ikey < ((t.body l).ent pos).ikey ∨ ltHi ((t.body l).ent pos).ikey i.hi := by
    rcases c5 with c | ⟨_, c⟩
    · exact Or.inl c
    · refine Or.inr fun z hz => ?_
      have := hhi z hz; omega
  obtain ⟨S1, S2, S3, S4, S5, S6, S7, S8, S9, S10, S11⟩ := splitLeaf_spec hbd.perm c2 (by omega : pos < (t.body l).n)
  -- the linked lists after `link_sibling`
  have hnext : ∀ q, t.next l = some q → q < t.fresh ∧ t.kind q = some .leaf := by
    intro q hq
    obtain ⟨iq, N⟩ := (h.link l i hk hl).next q hq
    exact ⟨h.lt N.dom, N.kind⟩
  obtain ⟨nx, pv, hlink, n1, n2, n3, p1, p2, p3⟩ : ∃ nx pv : Nat → Option Nat,
      linkSibling { (allocLeaf t false true (splitLeaf (t.body l) pos).2.1).1 with
        body := upd (upd t.body t.fresh (splitLeaf (t.body l) pos).2.1) l (splitLeaf (t.body l) pos).1 } l t.fresh =
        .ok { t with
          kind := upd t.kind t.fresh (some .leaf), rootf := upd t.rootf t.fresh false, locked := upd t.locked t.fresh true,
          parent := upd t.parent t.fresh none, next := nx, prev := pv,
          body := upd (upd t.body t.fresh (splitLeaf (t.body l) pos).2.1) l (splitLeaf (t.body l) pos).1,
          fresh := t.fresh + 1 } ∧
      nx l = some t.fresh ∧ nx t.fresh = t.next l ∧ (∀ y, y ≠ l → y ≠ t.fresh → nx y = t.next y) ∧
      pv t.fresh = some l ∧ (∀ q, t.next l = some q → pv q = some t.fresh) ∧
      (∀ y, y ≠ t.fresh → t.next l ≠ some y → pv y = t.prev y) := by
    have hlf : l ≠ t.fresh := by omega
    cases hn : t.next l with
    | none =>
      refine ⟨upd (upd (upd t.next t.fresh none) t.fresh none) l (some t.fresh), upd (upd t.prev t.fresh none) t.fresh (some l),
        ?_, updS, ?_, ?_, updS, ?_, ?_⟩
      · simp only [linkSibling, allocLeaf, updN hlf, hn]
      · rw [updN hlf.symm, updS]
      · intro y h1 h2; rw [updN h1, updN h2, updN h2]
      · intro q hq; cases hq
      · intro y h1 _; rw [updN h1, updN h1]
    | some q =>
      obtain ⟨q1, q2⟩ := hnext q hn
      have hqf : q ≠ t.fresh := by omega
      refine ⟨upd (upd (upd t.next t.fresh none) t.fresh (some q)) l (some t.fresh),
        upd (upd (upd t.prev t.fresh none) t.fresh (some l)) q (some t.fresh), ?_, updS, ?_, ?_, ?_, ?_, ?_⟩
      · simp only [linkSibling, allocLeaf, updN hlf, hn, updN hqf, q2]
      · rw [updN hlf.symm, updS]
      · intro y h1 h2; rw [updN h1, updN h2, updN h2]
      · rw [updN hqf.symm, updS]
      · intro q' hq; cases hq; exact updS
      · intro y h1 h2
        have : y ≠ q := by intro e; subst e; exact h2 rfl
        rw [updN this, updN h1, updN h1]
  obtain ⟨P, Pv, Pe⟩ := split_pend h hl hk rfl c2 (by omega : pos < (t.body l).n) c4 hcond nx pv n1 n2 n3 p1 p2 p3
  have hlf : l ≠ t.fresh := by omega
  have hkl : upd t.kind t.fresh (some Kind.leaf) l = some Kind.leaf := by rw [updN hlf]; exact hk
  obtain ⟨t', G', g1, g2, g3, g4, g5⟩ := propagate_ok B 64 _ _ l t.fresh _ _ _
    (t.rootf l && t.root == l) (t.rootf l && (t.parent l).isNone && !(t.rootf l && t.root == l)) true P
    (by simpa using hkl)
    (by
      intro hpn
      have hpn : upd t.parent t.fresh none l = none := hpn
      rw [updN hlf] at hpn
      have hrt := ((h.up l i hl).top hpn).1
      by_cases e : t.root = l
      · exact Or.inr ⟨by simp [e, hrt], by simp [e, hrt], e⟩
      · exact Or.inl ⟨by simp [e, hpn, hrt], e⟩)
    (by
      intro x hx
      have hx : x < t.fresh + 1 := hx
      by_cases e : x = t.fresh
      · subst e
        rw [hgt_leaf (by exact updS)]; omega
      · have hh := hB x (by omega)
        simp only [Verif.Tree.hgt, updN e] at hh ⊢
        exact hh)
    (by omega)
  refine ⟨t', G', ?_, ?_⟩
  · simp only [handleLeafSplit, c1]
    rw [← g1]
    have : linkSibling { (allocLeaf t false true (splitLeaf (t.body l) pos).2.1).1 with
        body := upd (allocLeaf t false true (splitLeaf (t.body l) pos).2.1).1.body l (splitLeaf (t.body l) pos).1 } l t.fresh = _ := hlink
    simp only [allocLeaf] at this ⊢
    simp only [this, bind, Except.bind, S7, maxPropagation]
  · have hGl : ∀ y, y ≠ l → y ≠ t.fresh → upd (upd G l (some ⟨i.pfx, i.lo, some ((t.body l).ent pos).ikey⟩)) t.fresh
        (some ⟨i.pfx, ((t.body l).ent pos).ikey, i.hi⟩) y = G y := by
      intro y h1 h2; rw [updN h2, updN h1]
    have hG'f := g3.leafG t.fresh _ (by exact updS) P.gr
    have hG'l := g3.leafG l _ hkl P.gl
    have hfr : t.fresh + 1 ≤ t'.fresh := g3.fresh
    have hk't : t'.kind t.fresh = some .leaf := by rw [g3.kind t.fresh (by show _ < t.fresh + 1; omega)]; exact updS
    have hk'l : t'.kind l = some .leaf := by rw [g3.kind l (by show _ < t.fresh + 1; omega)]; exact hkl
    have hbl : t'.body l = (splitLeaf (t.body l) pos).1 := by rw [g3.body]; exact updS
    have hbf : t'.body t.fresh = (splitLeaf (t.body l) pos).2.1 := by
      rw [g3.body]; show upd _ l _ t.fresh = _; rw [updN hlf.symm]; exact updS
    constructor
    · exact g2
    · intro hru
      apply g4
      rw [Pv]
      intro x y ix iy hx hy px py
      have ex : x ≠ t.fresh := by have := h.lt hx; omega
      have ey : y ≠ t.fresh := by have := h.lt hy; omega
      have px : upd t.parent t.fresh none x = none := px
      have py : upd t.parent t.fresh none y = none := py
      rw [updN ex] at px
      rw [updN ey] at py
      exact hru x y ix iy hx hy px py
    · intro pfx e
      rw [g3.hasE P.inv.dom g2.dom, Pe]
    · exact g3.count
    · omega
    · intro x hx
      rw [g3.kind x (by show x < t.fresh + 1; omega)]
      exact updN (by omega : x ≠ t.fresh)
    · intro x ix hx
      have ex : x ≠ t.fresh := by have := h.lt hx; omega
      by_cases e : x = l
      · subst e; rw [hl] at hx; cases hx
        exact ⟨_, hG'l, rfl⟩
      · exact g3.ghost x ix (by rw [hGl x e ex]; exact hx)
    · intro x ix hx
      have back1 : ∀ y iy, upd (upd G l (some ⟨i.pfx, i.lo, some ((t.body l).ent pos).ikey⟩)) t.fresh
        (some ⟨i.pfx, ((t.body l).ent pos).ikey, i.hi⟩) y = some iy → ∃ z iz, G z = some iz ∧ iz.pfx = iy.pfx := by
        intro y iy hy
        by_cases e1 : y = t.fresh
        · subst e1; rw [updS] at hy; cases hy; exact ⟨l, i, hl, rfl⟩
        · by_cases e2 : y = l
          · subst e2; rw [updN e1, updS] at hy; cases hy; exact ⟨y, i, hl, rfl⟩
          · rw [hGl y e2 e1] at hy; exact ⟨y, iy, hy, rfl⟩
      by_cases c : x < t.fresh + 1
      · obtain ⟨i1, hi1⟩ := (P.inv.dom x).2 c
        obtain ⟨i2, a1, a2⟩ := g3.ghost x i1 hi1
        rw [hx] at a1; cases a1
        obtain ⟨z, iz, b1, b2⟩ := back1 x i1 hi1
        exact ⟨z, iz, b1, by rw [b2, a2]⟩
      · obtain ⟨_, ii, y, iy, a1, a2, a3⟩ := g3.new x (by show t.fresh + 1 ≤ x; omega) (g2.lt hx)
        rw [hx] at a1; cases a1
        obtain ⟨z, iz, b1, b2⟩ := back1 y iy a2
        exact ⟨z, iz, b1, by rw [b2, a3]⟩
    · exact g5
    · by_cases c : ik < ((t.body l).ent pos).ikey
      · exact ⟨l, _, hG'l, hk'l, rfl, hlo, by simpa using c, by rw [hbl, S1]; exact c3⟩
      · refine ⟨t.fresh, _, hG'f, hk't, rfl, Nat.le_of_not_lt c, hhi, ?_⟩
        rw [hbf, S2]; omega
    · intro hs x ix hkx hx
      by_cases e1 : x = t.fresh
      · subst e1; rw [hG'f] at hx; cases hx; rw [hbf]
        have H := hs l i hk hl
        constructor
        · intro j j' h1 h2
          rw [S2] at h2
          rw [S6 j (by omega), S6 j' h2]
          exact H.lt _ _ (by omega) (by omega)
        · intro j hj
          rw [S2] at hj
          rw [S6 j hj]; exact H.hi _ (by omega)
        · exact H.hi pos (by omega)
      · by_cases e2 : x = l
        · subst e2; rw [hG'l] at hx; cases hx; rw [hbl]
          have H := hs x i hk hl
          constructor
          · intro j j' h1 h2
            rw [S1] at h2
            rw [S5 j (by omega), S5 j' h2]
            exact H.lt _ _ (by omega) (by omega)
          · intro j hj
            rw [S1] at hj
            rw [S5 j hj]
            simp only [ltHi_some]
            exact H.lt j pos hj (by omega)
          · simp only [ltHi_some]; exact c4
        · have hx1 : x < t.fresh := by
            by_contra c
            have := (g3.new x (by show t.fresh + 1 ≤ x; omega) (g2.lt hx)).1
            rw [hkx] at this; cases this
          obtain ⟨i1, hi1⟩ := (h.dom x).2 hx1
          have hkx' : t.kind x = some .leaf := by
            have := g3.kind x (by show x < t.fresh + 1; omega)
            rw [hkx] at this
            have this : some Kind.leaf = upd t.kind t.fresh (some Kind.leaf) x := this
            rw [updN e1] at this; exact this.symm
          have := g3.leafG x i1 (by show upd t.kind t.fresh (some Kind.leaf) x = _; rw [updN e1]; exact hkx')
            (by rw [hGl x e2 e1]; exact hi1)
          rw [hx] at this; cases this
          have hbx : t'.body x = t.body x := by
            rw [g3.body]; show upd (upd _ _ _) l _ x = _; rw [updN e2, updN e1]
          rw [hbx]
          exact hs x ix hkx' hi1
    · intro x ix hx
      have ex : x ≠ t.fresh := by have := h.lt hx; omega
      by_cases e : x = l
      · subst e; rw [hl] at hx; cases hx
        exact ⟨_, hG'l, rfl, rfl, fun z hz w hw => Nat.lt_of_lt_of_le (hz _ rfl) (hbd.hi pos (by omega) w hw)⟩
      · exact g3.low x ix (by rw [hGl x e ex]; exact hx)
    · intro hs x ix hkx hx j hj
      have ex : x ≠ t.fresh := by have := h.lt hx; omega
      by_cases e : x = l
      · subst e; rw [hl] at hx; cases hx
        have hr : ∀ a, a < 24 - pos → ltHi ((t.body x).ent (pos + a)).ikey i.hi := by
          intro a ha
          have := hs t.fresh _ hk't hG'f a (by rw [hbf, S2]; omega)
          rwa [hbf, S6 a (by omega)] at this
        by_cases c : j < pos
        · intro w hw
          exact Nat.lt_of_le_of_lt (hbd.sorted j pos c (by omega)) (hr 0 (by omega) w hw)
        · have := hr (j - pos) (by omega)
          rwa [show pos + (j - pos) = j by omega] at this
      · have hx1 := h.lt hx
        have hG'x := g3.leafG x ix (by show upd t.kind t.fresh (some Kind.leaf) x = _; rw [updN ex]; exact hkx)
          (by rw [hGl x e ex]; exact hx)
        have hk'x : t'.kind x = some .leaf := by
          rw [g3.kind x (by show x < t.fresh + 1; omega)]
          show upd t.kind t.fresh (some Kind.leaf) x = _
          rw [updN ex]; exact hkx
        have hbx : t'.body x = t.body x := by
          rw [g3.body]; show upd (upd _ _ _) l _ x = _; rw [updN e, updN ex]
        have := hs x ix hk'x hG'x j (by rw [hbx]; exact hj)
        rwa [hbx] at this
    · intro hs hne x ix hkx hx
      by_cases e1 : x = t.fresh
      · subst e1; rw [hG'f] at hx; cases hx
        exact hs l i hk hl pos (by omega)
      · by_cases e2 : x = l
        · subst e2; rw [hG'l] at hx; cases hx
          simp only [ltHi_some]; exact c4
        · have hx1 : x < t.fresh := by
            by_contra c
            have := (g3.new x (by show t.fresh + 1 ≤ x; omega) (g2.lt hx)).1
            rw [hkx] at this; cases this
          obtain ⟨i1, hi1⟩ := (h.dom x).2 hx1
          have hkx' : t.kind x = some .leaf := by
            have := g3.kind x (by show x < t.fresh + 1; omega)
            rw [hkx] at this
            have this : some Kind.leaf = upd t.kind t.fresh (some Kind.leaf) x := this
            rw [updN e1] at this; exact this.symm
          have := g3.leafG x i1 (by show upd t.kind t.fresh (some Kind.leaf) x = _; rw [updN e1]; exact hkx')
            (by rw [hGl x e2 e1]; exact hi1)
          rw [hx] at this; cases this
          exact hne x ix hkx' hi1

end Verif.Tree
