import Verif.Proof.TreeInv
set_option linter.unusedSimpArgs false
set_option linter.unusedVariables false
/-!
# Steps that change one leaf body or add a fresh layer root
-/
namespace Verif.Tree
open Verif.Spec (Bytes chunk lenClass)
open Verif.Internode (Arr upd)
open Verif.Perm (size get back backAtOffset insertFromBack swapFreeSlots setSize makeSorted24 params24)
variable {V : Type}

theorem updS {P : Type} {f : Nat → P} {i : Nat} {a : P} : upd f i a i = a := Verif.Internode.upd_same f i a
theorem updN {P : Type} {f : Nat → P} {i j : Nat} {a : P} (h : j ≠ i) : upd f i a j = f j := by simp [upd, h]

theorem InodeOK.congr {t t' : Tree V} {E E' : Ghost} {x : Nat} {a : Arr (Option Nat)} {i : Info} (h : InodeOK t E x a i)
    (hx : 7 ≤ a.nkeys ∨ t.parent x = none → 7 ≤ a.nkeys ∨ t'.parent x = none)
    (hc : ∀ c ic, E c = some ic → t.parent c = some x → E' c = some ic ∧ t'.parent c = some x ∧ hgt t' c = hgt t c)
    (hh : hgt t' x = hgt t x) : InodeOK t' E' x a i := by
  refine ⟨h.n1, h.n15, hx h.fill, h.klo, h.khi, h.sorted, ?_, h.inj⟩
  · intro j hj
    obtain ⟨c, ic, g⟩ := h.child j hj
    obtain ⟨h1, h2, h3⟩ := hc c ic g.dom g.par
    exact ⟨c, ic, g.eq, h1, h2, g.pfx, by rw [h3, hh]; exact g.hgt, g.lo, g.hi⟩

/-- Replace the body of the leaf `x`. -/
theorem Inv.setBody {t : Tree V} {G E : Ghost} {lk lk' : Nat → Prop} (h : Inv t G E lk) {x : Nat} {i : Info}
    (hx : G x = some i) (hk : t.kind x = some .leaf) (nb : Leaf V) (hb : BodyOK nb i.lo i.hi) (hl : LayerOK G i.pfx.bytes nb)
    (hs : t.prev x ≠ none → get 5 nb.perm 0 = 0 ∧ 0 < nb.n ∧ nb.ikey 0 = i.lo)
    (ht : Tight nb i → Tight (t.body x) i) (lf : Nat → Bool) (hlf : ∀ y, y < t.fresh → (lf y = true ↔ lk' y)) (c : Nat) :
    Inv { t with body := upd t.body x nb, locked := lf, count := c } G E lk' := by
  have hbody : ∀ y, y ≠ x → upd t.body x nb y = t.body y := fun y hy => updN hy
  have hbx : upd t.body x nb x = nb := updS
  constructor
  · exact h.dom
  · exact h.sub
  · exact h.kind
  · exact h.hgt
  · exact h.pfx8
  · exact h.lohi
  · intro y iy hky hy
    show BodyOK (upd t.body x nb y) _ _
    by_cases e : y = x
    · subst e; rw [hbx]; rw [hx] at hy; cases hy; exact hb
    · rw [hbody y e]; exact h.body y iy hky hy
  · intro y iy hky hy
    show LayerOK G _ (upd t.body x nb y)
    by_cases e : y = x
    · subst e; rw [hbx]; rw [hx] at hy; cases hy; exact hl
    · rw [hbody y e]; exact h.layer y iy hky hy
  · intro y iy hky hy
    have L := h.link y iy hky hy
    constructor
    · intro z hz
      obtain ⟨iz, N⟩ := L.next z hz
      refine ⟨iz, N.dom, N.kind, N.pfx, N.lo, N.prev, ?_⟩
      intro T
      by_cases e : y = x
      · subst e
        rw [hx] at hy; cases hy
        have T' : Tight (upd t.body y nb y) i := T
        rw [hbx] at T'
        exact N.tight (ht T')
      · have T' : Tight (upd t.body x nb y) iy := T
        rw [hbody y e] at T'
        exact N.tight T'
    · exact L.nonext
    · exact L.prev
    · intro hp
      show get 5 (upd t.body x nb y).perm 0 = 0 ∧ 0 < (upd t.body x nb y).n ∧ (upd t.body x nb y).ikey 0 = iy.lo
      by_cases e : y = x
      · subst e; rw [hbx]; rw [hx] at hy; cases hy; exact hs hp
      · rw [hbody y e]; exact L.slot0 hp
    · exact L.noprev
  · intro y iy hky hy
    exact (h.inode y iy hky hy).congr id (fun c ic h1 h2 => ⟨h1, h2, rfl⟩) rfl
  · intro y iy hy
    exact ⟨(h.up y iy hy).child, (h.up y iy hy).top⟩
  · exact h.root
  · exact hlf

/-- Changing only lock bits and the counter. -/
theorem Inv.setLocks {t : Tree V} {G E : Ghost} {lk lk' : Nat → Prop} (h : Inv t G E lk)
    (lf : Nat → Bool) (hlf : ∀ y, y < t.fresh → (lf y = true ↔ lk' y)) (c : Nat) :
    Inv { t with locked := lf, count := c } G E lk' := by
  constructor
  · exact h.dom
  · exact h.sub
  · exact h.kind
  · exact h.hgt
  · exact h.pfx8
  · exact h.lohi
  · exact h.body
  · exact h.layer
  · intro y iy hky hy
    have L := h.link y iy hky hy
    refine ⟨fun z hz => ?_, L.nonext, L.prev, L.slot0, L.noprev⟩
    obtain ⟨iz, N⟩ := L.next z hz
    exact ⟨iz, N.dom, N.kind, N.pfx, N.lo, N.prev, N.tight⟩
  · intro y iy hky hy
    exact (h.inode y iy hky hy).congr id (fun c ic h1 h2 => ⟨h1, h2, rfl⟩) rfl
  · intro y iy hy
    exact ⟨(h.up y iy hy).child, (h.up y iy hy).top⟩
  · exact h.root
  · exact hlf

theorem LayerOK.mono {G G' : Ghost} {pfx : Bytes} {b : Leaf V} (h : LayerOK G pfx b)
    (hG : ∀ q iq, G q = some iq → ∃ iq', G' q = some iq' ∧ iq'.pfx = iq.pfx) : LayerOK G' pfx b := by
  intro j hj q hq
  obtain ⟨iq, c, h1, h2, h3, h4⟩ := h j hj q hq
  obtain ⟨iq', g1, g2⟩ := hG q iq h1
  exact ⟨iq', c, g1, by rw [g2, h2], h3, h4⟩

/-- Allocate an unlocked leaf that is the root of a (new) layer. -/
theorem Inv.addLeaf {t : Tree V} {G : Ghost} {lk : Nat → Prop} (h : Inv t G G lk) (hlk : ¬ lk t.fresh) (pfx : Layer)
    (hp : pfx.bytes.length % 8 = 0) (b : Leaf V) (hb : BodyOK b 0 none)
    (hl : LayerOK (upd G t.fresh (some ⟨pfx, 0, none⟩)) pfx.bytes b) :
    Inv (allocLeaf t true false b).1 (upd G t.fresh (some ⟨pfx, 0, none⟩)) (upd G t.fresh (some ⟨pfx, 0, none⟩)) lk := by
  have hG : ∀ y, y ≠ t.fresh → upd G t.fresh (some ⟨pfx, 0, none⟩) y = G y := fun y hy => updN hy
  have hGn : upd G t.fresh (some ⟨pfx, 0, none⟩) t.fresh = some ⟨pfx, 0, none⟩ := updS
  have hGlt : ∀ y i, G y = some i → upd G t.fresh (some ⟨pfx, 0, none⟩) y = some i := by
    intro y i hy; rw [hG y (by have := h.lt hy; omega)]; exact hy
  have hmono : ∀ q iq, G q = some iq → ∃ iq', upd G t.fresh (some ⟨pfx, 0, none⟩) q = some iq' ∧ iq'.pfx = iq.pfx :=
    fun q iq hq => ⟨iq, hGlt q iq hq, rfl⟩
  generalize hG' : upd G t.fresh (some ⟨pfx, 0, none⟩) = G' at *
  have hlt : ∀ y, G' y ≠ none → y ≠ t.fresh → y < t.fresh := by
    intro y hy hne; rw [hG y hne] at hy
    cases hh : G y with
    | none => exact absurd hh hy
    | some i => exact h.lt hh
  have hkind : ∀ y, y ≠ t.fresh → upd t.kind t.fresh (some Kind.leaf) y = t.kind y := fun y hy => updN hy
  have hh : ∀ y, y ≠ t.fresh → Verif.Tree.hgt (allocLeaf t true false b).1 y = Verif.Tree.hgt t y := by
    intro y hy
    show (match upd t.kind t.fresh (some Kind.leaf) y with | some .inode => t.height y + 1 | _ => 0) = _
    rw [hkind y hy]; rfl
  have hhn : Verif.Tree.hgt (allocLeaf t true false b).1 t.fresh = 0 := hgt_leaf (t := (allocLeaf t true false b).1) updS
  constructor
  · intro y
    show _ ↔ y < t.fresh + 1
    by_cases e : y = t.fresh
    · subst e; exact ⟨fun _ => by omega, fun _ => ⟨_, hGn⟩⟩
    · rw [hG y e, h.dom y]; omega
  · intro y i hy
    show y < t.fresh + 1
    by_cases e : y = t.fresh
    · omega
    · have := hlt y (by rw [hy]; simp) e; omega
  · intro y hy
    have hy : y < t.fresh + 1 := hy
    show upd t.kind t.fresh (some Kind.leaf) y ≠ none
    by_cases e : y = t.fresh
    · subst e; rw [updS]; simp
    · rw [hkind y e]; exact h.kind y (by omega)
  · intro y hy
    have hy : y < t.fresh + 1 := hy
    show _ < t.fresh + 1
    by_cases e : y = t.fresh
    · subst e; rw [hhn]; omega
    · rw [hh y e]; have := h.hgt y (by omega); omega
  · intro y i hy
    by_cases e : y = t.fresh
    · subst e; rw [hGn] at hy; cases hy; exact hp
    · rw [hG y e] at hy; exact h.pfx8 y i hy
  · intro y i hy
    by_cases e : y = t.fresh
    · subst e; rw [hGn] at hy; cases hy; simp
    · rw [hG y e] at hy; exact h.lohi y i hy
  · intro y i hk hy
    show BodyOK (upd t.body t.fresh b y) _ _
    by_cases e : y = t.fresh
    · subst e; rw [hGn] at hy; cases hy; rw [updS]; exact hb
    · rw [hG y e] at hy; rw [updN e]
      exact h.body y i (by rw [← hkind y e]; exact hk) hy
  · intro y i hk hy
    show LayerOK G' _ (upd t.body t.fresh b y)
    by_cases e : y = t.fresh
    · subst e; rw [hGn] at hy; cases hy; rw [updS]; exact hl
    · rw [hG y e] at hy; rw [updN e]
      exact (h.layer y i (by rw [← hkind y e]; exact hk) hy).mono hmono
  · intro y i hk hy
    by_cases e : y = t.fresh
    · subst e; rw [hGn] at hy; cases hy
      constructor
      · intro z hz
        have hz : upd t.next t.fresh none t.fresh = some z := hz
        rw [updS] at hz; cases hz
      · intro _; rfl
      · intro w hw
        have hw : upd t.prev t.fresh none t.fresh = some w := hw
        rw [updS] at hw; cases hw
      · intro hw
        have hw : upd t.prev t.fresh none t.fresh ≠ none := hw
        rw [updS] at hw; exact absurd rfl hw
      · intro _; rfl
    · rw [hG y e] at hy
      have hk' : t.kind y = some .leaf := by rw [← hkind y e]; exact hk
      have L := h.link y i hk' hy
      constructor
      · intro z hz
        have hz : upd t.next t.fresh none y = some z := hz
        rw [updN e] at hz
        obtain ⟨iz, N⟩ := L.next z hz
        have ez : z ≠ t.fresh := by have := h.lt N.dom; omega
        refine ⟨iz, hGlt z iz N.dom, ?_, N.pfx, N.lo, ?_, ?_⟩
        · show upd t.kind t.fresh (some Kind.leaf) z = _
          rw [hkind z ez]; exact N.kind
        · show upd t.prev t.fresh none z = _
          rw [updN ez]; exact N.prev
        · intro T
          have T' : Tight (upd t.body t.fresh b y) i := T
          rw [updN e] at T'
          exact N.tight T'
      · intro hz
        have hz : upd t.next t.fresh none y = none := hz
        rw [updN e] at hz
        exact L.nonext hz
      · intro w hw
        have hw : upd t.prev t.fresh none y = some w := hw
        rw [updN e] at hw
        obtain ⟨w1, w2, iw, w3⟩ := L.prev w hw
        have ew : w ≠ t.fresh := by have := h.lt w3; omega
        exact ⟨by show upd t.next t.fresh none w = _; rw [updN ew]; exact w1,
          by show upd t.kind t.fresh (some Kind.leaf) w = _; rw [hkind w ew]; exact w2, iw, hGlt w iw w3⟩
      · intro hw
        have hw : upd t.prev t.fresh none y ≠ none := hw
        rw [updN e] at hw
        show get 5 (upd t.body t.fresh b y).perm 0 = 0 ∧ 0 < (upd t.body t.fresh b y).n ∧ (upd t.body t.fresh b y).ikey 0 = i.lo
        rw [updN e]; exact L.slot0 hw
      · intro hw
        have hw : upd t.prev t.fresh none y = none := hw
        rw [updN e] at hw
        exact L.noprev hw
  · intro y i hk hy
    by_cases e : y = t.fresh
    · subst e
      have hk : upd t.kind t.fresh (some Kind.leaf) t.fresh = some Kind.inode := hk
      rw [updS] at hk; cases hk
    · rw [hG y e] at hy
      have hk' : t.kind y = some .inode := by rw [← hkind y e]; exact hk
      refine (h.inode y i hk' hy).congr ?_ ?_ (hh y e)
      · refine Or.imp id fun hp => ?_
        show upd t.parent t.fresh none y = none
        rw [updN e]; exact hp
      · intro c ic h1 h2
        have ec : c ≠ t.fresh := by have := h.lt h1; omega
        refine ⟨hGlt c ic h1, ?_, hh c ec⟩
        show upd t.parent t.fresh none c = some y
        rw [updN ec]; exact h2
  · intro y i hy
    by_cases e : y = t.fresh
    · subst e; rw [hGn] at hy; cases hy
      constructor
      · intro p hp
        have hp : upd t.parent t.fresh none t.fresh = some p := hp
        rw [updS] at hp; cases hp
      · intro _
        exact ⟨updS, rfl, rfl⟩
    · rw [hG y e] at hy
      have U := h.up y i hy
      constructor
      · intro p hp
        have hp : upd t.parent t.fresh none y = some p := hp
        rw [updN e] at hp
        obtain ⟨ip, u1, u2, u3⟩ := U.child p hp
        have ep : p ≠ t.fresh := by have := h.lt u1; omega
        exact ⟨ip, hGlt p ip u1, by show upd t.kind t.fresh (some Kind.leaf) p = _; rw [hkind p ep]; exact u2, u3⟩
      · intro hp
        have hp : upd t.parent t.fresh none y = none := hp
        rw [updN e] at hp
        obtain ⟨u1, u2⟩ := U.top hp
        exact ⟨by show upd t.rootf t.fresh true y = true; rw [updN e]; exact u1, u2⟩
  · obtain ⟨i, r1, r2, r3⟩ := h.root
    have er : t.root ≠ t.fresh := by have := h.lt r1; omega
    exact ⟨i, hGlt _ i r1, r2, by show upd t.parent t.fresh none t.root = none; rw [updN er]; exact r3⟩
  · intro y hy
    have hy : y < t.fresh + 1 := hy
    show upd t.locked t.fresh false y = true ↔ _
    by_cases e : y = t.fresh
    · subst e; rw [updS]; exact ⟨fun h => (by cases h), fun h => absurd h hlk⟩
    · rw [updN e]; exact h.locks y (by omega)

end Verif.Tree
