import Verif.Proof.TreeStep
set_option linter.unusedSimpArgs false
set_option linter.unusedVariables false
/-!
# Split propagation keeps the invariant
-/
namespace Verif.Tree
open Verif.Spec (Bytes chunk lenClass)
open Verif.Internode (Arr upd insertKeyAndChild splitInto vkey vchild)
open Verif.Perm (size get back backAtOffset insertFromBack swapFreeSlots setSize makeSorted24 params24)
variable {V : Type}

/-- What parents see while the split of `l` into `l` and `r` is pending: `l` with the whole range, `r` not yet there. -/
def view (G : Ghost) (l r : Nat) : Ghost := fun x =>
  if x = r then none
  else if x = l then
    match G l, G r with
    | some il, some ir => some ⟨il.pfx, il.lo, ir.hi⟩
    | _, _ => none
  else G x

/-- A split of `l` into `l`, `r` at `s`, not yet known to the parent. -/
structure Pend (t : Tree V) (G : Ghost) (l r s : Nat) (il ir : Info) : Prop where
  inv : Inv t G (view G l r) (fun x => x = l ∨ x = r)
  gl : G l = some il
  gr : G r = some ir
  pfx : ir.pfx = il.pfx
  hi : il.hi = some s
  lo : ir.lo = s
  ne : l ≠ r
  hgt : hgt t r = hgt t l
  kind : t.kind r = t.kind l
  fill : t.kind l = some .inode → 7 ≤ (t.arr l).nkeys ∧ 7 ≤ (t.arr r).nkeys

variable {t : Tree V} {G : Ghost} {l r s : Nat} {il ir : Info}

theorem Pend.view_l (h : Pend t G l r s il ir) : view G l r l = some ⟨il.pfx, il.lo, ir.hi⟩ := by
  simp [view, h.ne, h.gl, h.gr]

theorem view_r : view G l r r = none := by simp [view]

theorem view_ne {x : Nat} (h1 : x ≠ l) (h2 : x ≠ r) : view G l r x = G x := by simp [view, h1, h2]

/-- Frame of a propagation: leaves are not touched, nodes keep their layer. -/
structure Frame (t : Tree V) (G : Ghost) (t' : Tree V) (G' : Ghost) : Prop where
  body : t'.body = t.body
  next : t'.next = t.next
  prev : t'.prev = t.prev
  count : t'.count = t.count
  fresh : t.fresh ≤ t'.fresh
  kind : ∀ x, x < t.fresh → t'.kind x = t.kind x
  ghost : ∀ x i, G x = some i → ∃ i', G' x = some i' ∧ i'.pfx = i.pfx
  leafG : ∀ x i, t.kind x = some .leaf → G x = some i → G' x = some i
  new : ∀ x, t.fresh ≤ x → x < t'.fresh → t'.kind x = some .inode ∧ ∃ i y iy, G' x = some i ∧ G y = some iy ∧ iy.pfx = i.pfx
  low : ∀ x i, G x = some i → ∃ i', G' x = some i' ∧ i'.pfx = i.pfx ∧ i'.lo = i.lo ∧ ∀ z, ltHi z i'.hi → ltHi z i.hi

theorem Frame.trans {t1 t2 t3 : Tree V} {G1 G2 G3 : Ghost} (a : Frame t1 G1 t2 G2) (b : Frame t2 G2 t3 G3)
    (d1 : ∀ x, (∃ i, G1 x = some i) ↔ x < t1.fresh) (d2 : ∀ x, (∃ i, G2 x = some i) ↔ x < t2.fresh) : Frame t1 G1 t3 G3 := by
  refine ⟨b.body.trans a.body, b.next.trans a.next, b.prev.trans a.prev, b.count.trans a.count,
    Nat.le_trans a.fresh b.fresh, ?_, ?_, ?_, ?_, ?_⟩
  · intro x hx; rw [b.kind x (Nat.lt_of_lt_of_le hx a.fresh), a.kind x hx]
  · intro x i hx
    obtain ⟨i2, h1, h2⟩ := a.ghost x i hx
    obtain ⟨i3, h3, h4⟩ := b.ghost x i2 h1
    exact ⟨i3, h3, h4.trans h2⟩
  · intro x i hk hx
    exact b.leafG x i (by rw [a.kind x ((d1 x).1 ⟨i, hx⟩)]; exact hk) (a.leafG x i hk hx)
  · intro x h1 h2
    by_cases c : x < t2.fresh
    · obtain ⟨g1, i, y, iy, g2, g3, g4⟩ := a.new x h1 c
      obtain ⟨i3, g5, g6⟩ := b.ghost x i g2
      exact ⟨by rw [b.kind x c]; exact g1, i3, y, iy, g5, g3, by rw [g4, g6]⟩
    · obtain ⟨g1, i, y, iy, g2, g3, g4⟩ := b.new x (by omega) h2
      have hy : y < t2.fresh := (d2 y).1 ⟨iy, g3⟩
      by_cases cy : y < t1.fresh
      · obtain ⟨iy1, k1⟩ := (d1 y).2 cy
        obtain ⟨iy2, k2, k3⟩ := a.ghost y iy1 k1
        rw [g3] at k2; cases k2
        exact ⟨g1, i, y, iy1, g2, k1, by rw [← k3, g4]⟩
      · obtain ⟨_, i', y', iy', k1, k2, k3⟩ := a.new y (by omega) hy
        rw [g3] at k1; cases k1
        exact ⟨g1, i, y', iy', g2, k2, by rw [k3, g4]⟩
  · intro x i hx
    obtain ⟨i2, h1, h2, h3, h7⟩ := a.low x i hx
    obtain ⟨i3, h4, h5, h6, h8⟩ := b.low x i2 h1
    exact ⟨i3, h4, h5.trans h2, h6.trans h3, fun z hz => h7 z (h8 z hz)⟩

/-- At most one top node per layer. -/
def RU (t : Tree V) (E : Ghost) : Prop :=
  ∀ x y ix iy, E x = some ix → E y = some iy → t.parent x = none → t.parent y = none → ix.pfx = iy.pfx → x = y

/-! ## A new root above the two halves -/

theorem newRoot_inv (h : Pend t G l r s il ir) (hp : t.parent l = none) (rf lf : Nat → Bool) (rt : Nat)
    (hrf : ∀ y, y ≠ l → y ≠ r → y ≠ t.fresh → rf y = t.rootf y) (hrfn : rf t.fresh = true)
    (hlf : ∀ y, y ≠ l → y ≠ r → y ≠ t.fresh → lf y = t.locked y) (hlfl : lf l = false) (hlfr : lf r = false)
    (hlfn : lf t.fresh = false) (hrt : (rt = t.root ∧ t.root ≠ l) ∨ (rt = t.fresh ∧ t.root = l)) :
    let t' : Tree V := { t with
      kind := upd t.kind t.fresh (some .inode), rootf := rf, locked := lf,
      parent := upd (upd (upd t.parent t.fresh none) l (some t.fresh)) r (some t.fresh),
      height := upd t.height t.fresh (hgt t l), arr := upd t.arr t.fresh (rootArr l r s), fresh := t.fresh + 1, root := rt }
    let G' : Ghost := upd G t.fresh (some ⟨il.pfx, il.lo, ir.hi⟩)
    Inv0 t' G' ∧ Frame t G t' G' ∧ (RU t (view G l r) → RU t' G') := by
  intro t' G'
  have I := h.inv
  have hl := I.lt h.gl
  have hr := I.lt h.gr
  have hne := h.ne
  obtain ⟨top1, top2, top3⟩ := (I.up l _ h.view_l).top hp
  simp only at top2 top3
  have hG : ∀ y, y ≠ t.fresh → G' y = G y := fun y hy => updN hy
  have hGn : G' t.fresh = some ⟨il.pfx, il.lo, ir.hi⟩ := updS
  have hGlt : ∀ y i, G y = some i → G' y = some i := by
    intro y i hy; rw [hG y (by have := I.lt hy; omega)]; exact hy
  have hkind : ∀ y, y ≠ t.fresh → t'.kind y = t.kind y := fun y hy => updN hy
  have hkn : t'.kind t.fresh = some .inode := updS
  have hpar : ∀ y, y ≠ t.fresh → y ≠ l → y ≠ r → t'.parent y = t.parent y := by
    intro y h1 h2 h3
    show upd (upd (upd t.parent t.fresh none) l (some t.fresh)) r (some t.fresh) y = _
    rw [updN h3, updN h2, updN h1]
  have hparl : t'.parent l = some t.fresh := by
    show upd (upd (upd t.parent t.fresh none) l (some t.fresh)) r (some t.fresh) l = _
    rw [updN hne, updS]
  have hparr : t'.parent r = some t.fresh := updS
  have hparn : t'.parent t.fresh = none := by
    show upd (upd (upd t.parent t.fresh none) l (some t.fresh)) r (some t.fresh) t.fresh = _
    rw [updN (by omega), updN (by omega), updS]
  have hh : ∀ y, y ≠ t.fresh → Verif.Tree.hgt t' y = Verif.Tree.hgt t y := by
    intro y hy
    have e : t'.height y = t.height y := updN hy
    simp only [Verif.Tree.hgt, hkind y hy, e]
  have hhn : Verif.Tree.hgt t' t.fresh = Verif.Tree.hgt t l + 1 := by
    rw [hgt_inode hkn]
    show upd t.height t.fresh (Verif.Tree.hgt t l) t.fresh + 1 = _
    rw [updS]
  have harr : ∀ y, y ≠ t.fresh → t'.arr y = t.arr y := fun y hy => updN hy
  have harrn : t'.arr t.fresh = rootArr l r s := updS
  have hvG : ∀ y i, view G l r y = some i → y ≠ l → G y = some i := by
    intro y i hy hyl
    by_cases e : y = r
    · subst e; rw [view_r] at hy; cases hy
    · rwa [view_ne hyl e] at hy
  have hlos : il.lo ≤ s := I.lohi l il h.gl s h.hi
  have ilohi : leHi il.lo ir.hi := by rw [top3]; simp
  refine ⟨?_, ?_, ?_⟩
  · constructor
    · intro y
      show _ ↔ y < t.fresh + 1
      by_cases e : y = t.fresh
      · subst e; exact ⟨fun _ => by omega, fun _ => ⟨_, hGn⟩⟩
      · rw [hG y e, I.dom y]; omega
    · intro y i hy
      show y < t.fresh + 1
      by_cases e : y = t.fresh
      · omega
      · rw [hG y e] at hy; have := I.lt hy; omega
    · intro y hy
      have hy : y < t.fresh + 1 := hy
      by_cases e : y = t.fresh
      · subst e; rw [hkn]; simp
      · rw [hkind y e]; exact I.kind y (by omega)
    · intro y hy
      have hy : y < t.fresh + 1 := hy
      show _ < t.fresh + 1
      by_cases e : y = t.fresh
      · subst e; rw [hhn]; have := I.hgt l hl; omega
      · rw [hh y e]; have := I.hgt y (by omega); omega
    · intro y i hy
      by_cases e : y = t.fresh
      · subst e; rw [hGn] at hy; cases hy; exact I.pfx8 l il h.gl
      · rw [hG y e] at hy; exact I.pfx8 y i hy
    · intro y i hy
      by_cases e : y = t.fresh
      · subst e; rw [hGn] at hy; cases hy; exact ilohi
      · rw [hG y e] at hy; exact I.lohi y i hy
    · intro y i hk hy
      by_cases e : y = t.fresh
      · subst e; rw [hkn] at hk; cases hk
      · rw [hG y e] at hy; rw [hkind y e] at hk; exact I.body y i hk hy
    · intro y i hk hy
      by_cases e : y = t.fresh
      · subst e; rw [hkn] at hk; cases hk
      · rw [hG y e] at hy; rw [hkind y e] at hk
        exact (I.layer y i hk hy).mono (fun q iq hq => ⟨iq, hGlt q iq hq, rfl⟩)
    · intro y i hk hy
      by_cases e : y = t.fresh
      · subst e; rw [hkn] at hk; cases hk
      · rw [hG y e] at hy; rw [hkind y e] at hk
        have L := I.link y i hk hy
        refine ⟨fun z hz => ?_, L.nonext, fun w hw => ?_, L.slot0, L.noprev⟩
        · obtain ⟨iz, N⟩ := L.next z hz
          have ez : z ≠ t.fresh := by have := I.lt N.dom; omega
          exact ⟨iz, hGlt z iz N.dom, by rw [hkind z ez]; exact N.kind, N.pfx, N.lo, N.prev, N.tight⟩
        · obtain ⟨w1, w2, iw, w3⟩ := L.prev w hw
          have ew : w ≠ t.fresh := by have := I.lt w3; omega
          exact ⟨w1, by rw [hkind w ew]; exact w2, iw, hGlt w iw w3⟩
    · intro y i hk hy
      by_cases e : y = t.fresh
      · subst e
        rw [hGn] at hy; cases hy
        rw [harrn]
        refine ⟨by simp [rootArr], by simp [rootArr], Or.inr hparn, ?_, ?_, ?_, ?_, ?_⟩
        · intro j hj
          have : j = 0 := by simp [rootArr] at hj; exact hj
          subst this; simp [rootArr, upd]; exact hlos
        · intro j hj; rw [top3]; simp
        · intro j j' h1 h2; simp [rootArr] at h2; omega
        · intro j hj
          have hj : j ≤ 1 := hj
          rcases (by omega : j = 0 ∨ j = 1) with e | e
          · subst e
            refine ⟨l, il, by simp [rootArr, upd], hGlt l il h.gl, hparl, rfl, by rw [hhn, hh l (by omega)], ?_, ?_⟩
            · simp [clo]
            · rw [h.hi]; simp [chi, rootArr, upd]
          · subst e
            refine ⟨r, ir, by simp [rootArr, upd], hGlt r ir h.gr, hparr, h.pfx, ?_, ?_, ?_⟩
            · rw [hhn, hh r (by omega), h.hgt]
            · rw [h.lo]; simp [clo, rootArr, upd]
            · simp [chi, rootArr, upd]
        · intro j j' hj hj' e
          have hj : j ≤ 1 := hj
          have hj' : j' ≤ 1 := hj'
          rcases (by omega : j = 0 ∨ j = 1) with a | a <;> rcases (by omega : j' = 0 ∨ j' = 1) with b | b <;>
            subst a <;> subst b
          · rfl
          · simp [rootArr, upd] at e; exact absurd e hne
          · simp [rootArr, upd] at e; exact absurd e.symm hne
          · rfl
      · rw [hG y e] at hy; rw [hkind y e] at hk; rw [harr y e]
        refine (I.inode y i hk hy).congr ?_ ?_ (hh y e)
        · intro hf
          by_cases ey : y = l
          · subst ey; exact Or.inl (h.fill hk).1
          · by_cases ey' : y = r
            · subst ey'; exact Or.inl (h.fill (by rw [← h.kind]; exact hk)).2
            · rw [hpar y e ey ey']; exact hf
        · intro c ic h1 h2
          have cl : c ≠ l := by intro ec; subst ec; rw [hp] at h2; cases h2
          have cr : c ≠ r := by intro ec; subst ec; rw [view_r] at h1; cases h1
          have cG := hvG c ic h1 cl
          have cf : c ≠ t.fresh := by have := I.lt cG; omega
          exact ⟨hGlt c ic cG, by rw [hpar c cf cl cr]; exact h2, hh c cf⟩
    · intro y i hy
      by_cases e : y = t.fresh
      · subst e; rw [hGn] at hy; cases hy
        exact ⟨fun p hp => (by rw [hparn] at hp; cases hp), fun _ => ⟨hrfn, top2, top3⟩⟩
      · rw [hG y e] at hy
        by_cases el : y = l
        · subst el
          refine ⟨fun p hpp => ?_, fun hpp => by rw [hparl] at hpp; cases hpp⟩
          rw [hparl] at hpp; cases hpp
          exact ⟨_, hGn, hkn, 0, by rw [harrn]; simp [rootArr], by rw [harrn]; simp [rootArr, upd]⟩
        · by_cases er : y = r
          · subst er
            refine ⟨fun p hpp => ?_, fun hpp => by rw [hparr] at hpp; cases hpp⟩
            rw [hparr] at hpp; cases hpp
            exact ⟨_, hGn, hkn, 1, by rw [harrn]; simp [rootArr], by rw [harrn]; simp [rootArr, upd]⟩
          · have U := I.up y i (by rw [view_ne el er]; exact hy)
            constructor
            · intro p hpp
              rw [hpar y e el er] at hpp
              obtain ⟨ip, u1, u2, u3⟩ := U.child p hpp
              have ep : p ≠ t.fresh := by have := I.lt u1; omega
              rw [hkind p ep, harr p ep]
              exact ⟨ip, hGlt p ip u1, u2, u3⟩
            · intro hpp
              rw [hpar y e el er] at hpp
              obtain ⟨u1, u2⟩ := U.top hpp
              exact ⟨by show rf y = true; rw [hrf y el er e]; exact u1, u2⟩
    · obtain ⟨i, r1, r2, r3⟩ := I.root
      rcases hrt with ⟨a1, a2⟩ | ⟨a1, a2⟩
      · have rr : t.root ≠ r := by intro e; rw [e, view_r] at r1; cases r1
        have hg := hvG _ _ r1 a2
        have rf' : t.root ≠ t.fresh := by have := I.lt hg; omega
        refine ⟨i, ?_, r2, ?_⟩
        · show G' rt = some i; rw [a1]; exact hGlt _ _ hg
        · show t'.parent rt = none; rw [a1, hpar _ rf' a2 rr]; exact r3
      · refine ⟨⟨il.pfx, il.lo, ir.hi⟩, ?_, ?_, ?_⟩
        · show G' rt = _; rw [a1]; exact hGn
        · rw [a2, h.view_l] at r1; cases r1; exact r2
        · show t'.parent rt = none; rw [a1]; exact hparn
    · intro y hy
      have hy : y < t.fresh + 1 := hy
      show lf y = true ↔ False
      have : lf y = false := by
        by_cases e : y = t.fresh
        · rw [e]; exact hlfn
        · by_cases el : y = l
          · rw [el]; exact hlfl
          · by_cases er : y = r
            · rw [er]; exact hlfr
            · rw [hlf y el er e]
              cases hq : t.locked y with
              | false => rfl
              | true =>
                rcases (I.locks y (by omega)).1 hq with g | g
                · exact absurd g el
                · exact absurd g er
      rw [this]; simp
  · refine ⟨rfl, rfl, rfl, rfl, by show t.fresh ≤ t.fresh + 1; omega, fun x hx => hkind x (by omega), ?_, ?_, ?_, fun x i hx => ⟨i, hGlt x i hx, rfl, rfl, fun _ => id⟩⟩
    · intro x i hx; exact ⟨i, hGlt x i hx, rfl⟩
    · intro x i _ hx; exact hGlt x i hx
    · intro x h1 h2
      have h2 : x < t.fresh + 1 := h2
      have : x = t.fresh := by omega
      subst this
      exact ⟨hkn, _, l, il, hGn, h.gl, rfl⟩
  · intro ru x y ix iy hx hy hpx hpy hpf
    have xl : x ≠ l := by intro e; rw [e, hparl] at hpx; cases hpx
    have xr : x ≠ r := by intro e; rw [e, hparr] at hpx; cases hpx
    have yl : y ≠ l := by intro e; rw [e, hparl] at hpy; cases hpy
    have yr : y ≠ r := by intro e; rw [e, hparr] at hpy; cases hpy
    by_cases ex : x = t.fresh
    · by_cases ey : y = t.fresh
      · rw [ex, ey]
      · subst ex
        rw [hGn] at hx; cases hx
        rw [hG y ey] at hy
        rw [hpar y ey yl yr] at hpy
        exact absurd (ru l y _ iy h.view_l (by rw [view_ne yl yr]; exact hy) hp hpy hpf).symm yl
    · by_cases ey : y = t.fresh
      · subst ey
        rw [hGn] at hy; cases hy
        rw [hG x ex] at hx
        rw [hpar x ex xl xr] at hpx
        exact absurd (ru x l ix _ (by rw [view_ne xl xr]; exact hx) h.view_l hpx hp hpf) xl
      · rw [hG x ex] at hx; rw [hG y ey] at hy
        rw [hpar x ex xl xr] at hpx; rw [hpar y ey yl yr] at hpy
        exact ru x y ix iy (by rw [view_ne xl xr]; exact hx) (by rw [view_ne yl yr]; exact hy) hpx hpy hpf

/-! ## The virtual parent: the parent with the new child, before it is stored or divided -/

structure Virt (t : Tree V) (G : Ghost) (l p r : Nat) (ip : Info) (n : Nat) (key : Nat → Nat) (kid : Nat → Option Nat) :
    Prop where
  klo : ∀ j, j < n → ip.lo ≤ key j
  khi : ∀ j, j < n → leHi (key j) ip.hi
  sorted : ∀ j j', j < j' → j' < n → key j ≤ key j'
  child : ∀ j, j ≤ n → ∃ c ic, kid j = some c ∧ G c = some ic ∧ (c = r ∨ (c ≠ r ∧ t.parent c = some p)) ∧ ic.pfx = ip.pfx ∧
    hgt t c + 1 = hgt t p ∧ ic.lo = (if j = 0 then ip.lo else key (j - 1)) ∧
    ic.hi = (if j = n then ip.hi else some (key j))
  inj : ∀ j j', j ≤ n → j' ≤ n → kid j = kid j' → j = j'
  all : ∀ c, c ≠ r → view G l r c ≠ none → t.parent c = some p → ∃ j, j ≤ n ∧ kid j = some c
  hasr : ∃ j, j ≤ n ∧ kid j = some r

theorem virt (h : Pend t G l r s il ir) {p : Nat} {ip : Info} (hip : view G l r p = some ip)
    (ho : InodeOK t (view G l r) p (t.arr p) ip) (idx : Nat) (hidx : idx ≤ (t.arr p).nkeys)
    (hcl : (t.arr p).child idx = some l) :
    Virt t G l p r ip ((t.arr p).nkeys + 1) (vkey (t.arr p) idx s) (vchild (t.arr p) idx (some r)) := by
  have I := h.inv
  generalize ha : t.arr p = a at *
  obtain ⟨c, ic, hc⟩ := ho.child idx hidx
  have ec : c = l := by have := hc.eq; rw [hcl] at this; cases this; rfl
  subst ec
  have eic : ic = ⟨il.pfx, il.lo, ir.hi⟩ := by have := hc.dom; rw [h.view_l] at this; cases this; rfl
  subst eic
  have hlo : il.lo = clo a ip.lo idx := hc.lo
  have hhi : ir.hi = chi a ip.hi idx := hc.hi
  have hls : il.lo ≤ s := I.lohi c il h.gl s h.hi
  have hsh : leHi s ir.hi := by have := I.lohi r ir h.gr; rwa [h.lo] at this
  have s_lo : ip.lo ≤ s := by
    rw [hlo] at hls
    unfold clo at hls
    split at hls
    · exact hls
    · exact Nat.le_trans (ho.klo _ (by omega)) hls
  have s_hi : leHi s ip.hi := by
    rw [hhi] at hsh
    unfold chi at hsh
    split at hsh
    · exact hsh
    · intro z hz; have := ho.khi idx (by omega) z hz; simp at hsh; omega
  have s_prev : ∀ j, j < idx → a.ikey j ≤ s := by
    intro j hj
    rw [hlo] at hls; unfold clo at hls; rw [if_neg (by omega)] at hls
    by_cases e : j = idx - 1
    · rw [e]; exact hls
    · exact Nat.le_trans (ho.sorted j (idx - 1) (by omega) (by omega)) hls
  have s_next : ∀ j, idx ≤ j → j < a.nkeys → s ≤ a.ikey j := by
    intro j h1 h2
    rw [hhi] at hsh; unfold chi at hsh; rw [if_neg (by omega)] at hsh
    simp only [leHi_some] at hsh
    by_cases e : j = idx
    · rw [e]; exact hsh
    · exact Nat.le_trans hsh (ho.sorted idx j (by omega) h2)
  have nor : ∀ j, j ≤ a.nkeys → a.child j ≠ some r := by
    intro j hj e
    obtain ⟨c', ic', g⟩ := ho.child j hj
    have := g.eq; rw [e] at this; cases this
    have := g.dom; rw [view_r] at this; cases this
  refine ⟨?_, ?_, ?_, ?_, ?_, ?_, ?_⟩
  · intro j hj
    unfold vkey
    split
    · exact ho.klo j (by omega)
    · split
      · exact s_lo
      · exact ho.klo _ (by omega)
  · intro j hj
    unfold vkey
    split
    · exact ho.khi j (by omega)
    · split
      · exact s_hi
      · exact ho.khi _ (by omega)
  · intro j j' h1 h2
    unfold vkey
    by_cases a1 : j < idx
    · rw [if_pos a1]
      by_cases a2 : j' < idx
      · rw [if_pos a2]; exact ho.sorted j j' h1 (by omega)
      · rw [if_neg a2]
        by_cases a3 : j' = idx
        · rw [if_pos a3]; exact s_prev j a1
        · rw [if_neg a3]
          exact Nat.le_trans (s_prev j a1) (s_next _ (by omega) (by omega))
    · rw [if_neg a1, if_neg (by omega : ¬ j' < idx), if_neg (by omega : ¬ j' = idx)]
      by_cases a3 : j = idx
      · rw [if_pos a3]; exact s_next _ (by omega) (by omega)
      · rw [if_neg a3]; exact ho.sorted _ _ (by omega) (by omega)
  · intro j hj
    by_cases e : j = idx + 1
    · subst e
      refine ⟨r, ir, ?_, h.gr, Or.inl rfl, ?_, ?_, ?_, ?_⟩
      · unfold vchild; rw [if_neg (by omega), if_pos rfl]
      · rw [h.pfx]; exact hc.pfx
      · rw [h.hgt]; exact hc.hgt
      · rw [h.lo, if_neg (by omega)]; unfold vkey; rw [if_neg (by omega), if_pos (by omega)]
      · rw [hhi]; unfold chi vkey
        by_cases e2 : idx = a.nkeys
        · rw [if_pos e2, if_pos (by omega)]
        · rw [if_neg e2, if_neg (by omega), if_neg (by omega), if_neg (by omega)]; rfl
    · by_cases e2 : j = idx
      · subst e2
        refine ⟨c, il, ?_, h.gl, Or.inr ⟨h.ne, hc.par⟩, hc.pfx, hc.hgt, ?_, ?_⟩
        · unfold vchild; rw [if_pos (by omega)]; exact hcl
        · rw [hlo]; unfold clo vkey
          by_cases e3 : j = 0
          · rw [if_pos e3, if_pos e3]
          · rw [if_neg e3, if_neg e3, if_pos (by omega)]
        · rw [h.hi, if_neg (by omega)]; unfold vkey; rw [if_neg (by omega), if_pos rfl]
      · -- an old child other than l
        have key : ∀ j0, j0 ≤ a.nkeys → j0 ≠ idx → ∃ c' ic', a.child j0 = some c' ∧ G c' = some ic' ∧
            (c' = r ∨ (c' ≠ r ∧ t.parent c' = some p)) ∧ ic'.pfx = ip.pfx ∧ Verif.Tree.hgt t c' + 1 = Verif.Tree.hgt t p ∧
            ic'.lo = clo a ip.lo j0 ∧ ic'.hi = chi a ip.hi j0 := by
          intro j0 hj0 hne0
          obtain ⟨c', ic', g⟩ := ho.child j0 hj0
          have c'l : c' ≠ c := by
            intro e; subst e
            exact hne0 (ho.inj j0 idx hj0 hidx (by rw [g.eq, hcl]))
          have c'r : c' ≠ r := by intro e; subst e; exact nor j0 hj0 g.eq
          refine ⟨c', ic', g.eq, ?_, Or.inr ⟨c'r, g.par⟩, g.pfx, g.hgt, g.lo, g.hi⟩
          have := g.dom; rwa [view_ne c'l c'r] at this
        by_cases e3 : j < idx
        · obtain ⟨c', ic', g1, g2, g3, g4, g5, g6, g7⟩ := key j (by omega) (by omega)
          refine ⟨c', ic', ?_, g2, g3, g4, g5, ?_, ?_⟩
          · unfold vchild; rw [if_pos (by omega)]; exact g1
          · rw [g6]; unfold clo vkey
            by_cases e4 : j = 0
            · rw [if_pos e4, if_pos e4]
            · rw [if_neg e4, if_neg e4, if_pos (by omega)]
          · rw [g7]; unfold chi vkey; rw [if_neg (by omega), if_neg (by omega), if_pos e3]
        · obtain ⟨c', ic', g1, g2, g3, g4, g5, g6, g7⟩ := key (j - 1) (by omega) (by omega)
          refine ⟨c', ic', ?_, g2, g3, g4, g5, ?_, ?_⟩
          · unfold vchild; rw [if_neg (by omega), if_neg e]; exact g1
          · rw [g6]; unfold clo vkey
            rw [if_neg (by omega), if_neg (by omega), if_neg (by omega), if_neg (by omega)]
          · rw [g7]; unfold chi vkey
            by_cases e4 : j = a.nkeys + 1
            · rw [if_pos (by omega), if_pos e4]
            · rw [if_neg (by omega), if_neg e4, if_neg (by omega), if_neg (by omega)]
  · intro j j' hj hj'
    unfold vchild
    by_cases a1 : j ≤ idx
    · rw [if_pos a1]
      by_cases b1 : j' ≤ idx
      · rw [if_pos b1]; exact ho.inj j j' (by omega) (by omega)
      · rw [if_neg b1]
        by_cases b2 : j' = idx + 1
        · rw [if_pos b2]; intro e; exact absurd e (nor j (by omega))
        · rw [if_neg b2]; intro e; have := ho.inj j (j' - 1) (by omega) (by omega) e; omega
    · rw [if_neg a1]
      by_cases a2 : j = idx + 1
      · rw [if_pos a2]
        by_cases b1 : j' ≤ idx
        · rw [if_pos b1]; intro e; exact absurd e.symm (nor j' (by omega))
        · rw [if_neg b1]
          by_cases b2 : j' = idx + 1
          · intro _; omega
          · rw [if_neg b2]; intro e; exact absurd e.symm (nor (j' - 1) (by omega))
      · rw [if_neg a2]
        by_cases b1 : j' ≤ idx
        · rw [if_pos b1]; intro e; have := ho.inj (j - 1) j' (by omega) (by omega) e; omega
        · rw [if_neg b1]
          by_cases b2 : j' = idx + 1
          · rw [if_pos b2]; intro e; exact absurd e (nor (j - 1) (by omega))
          · rw [if_neg b2]; intro e; have := ho.inj (j - 1) (j' - 1) (by omega) (by omega) e; omega
  · intro c' hc'r hc'v hpc
    cases hv : view G c r c' with
    | none => exact absurd hv hc'v
    | some i' =>
      obtain ⟨ip', u1, u2, j, hj, u3⟩ := (I.up c' i' hv).child p hpc
      rw [ha] at hj u3
      by_cases e : j ≤ idx
      · exact ⟨j, by omega, by unfold vchild; rw [if_pos e]; exact u3⟩
      · exact ⟨j + 1, by omega, by unfold vchild; rw [if_neg (by omega), if_neg (by omega)]; exact u3⟩
  · exact ⟨idx + 1, by omega, by unfold vchild; rw [if_neg (by omega), if_pos rfl]⟩

/-- The parent is never one of the two halves. -/
theorem Pend.parent_ne (h : Pend t G l r s il ir) {p : Nat} (hp : t.parent l = some p) :
    ∃ ip, view G l r p = some ip ∧ G p = some ip ∧ t.kind p = some .inode ∧ p ≠ l ∧ p ≠ r ∧
      InodeOK t (view G l r) p (t.arr p) ip ∧ Verif.Tree.hgt t l + 1 = Verif.Tree.hgt t p ∧
      ∃ idx, idx ≤ (t.arr p).nkeys ∧ (t.arr p).child idx = some l := by
  have I := h.inv
  obtain ⟨ip, u1, u2, idx, hidx, hcl⟩ := (I.up l _ h.view_l).child p hp
  have ho := I.inode p ip u2 u1
  obtain ⟨c, ic, hc⟩ := ho.child idx hidx
  have ec : c = l := by have := hc.eq; rw [hcl] at this; cases this; rfl
  subst ec
  have hh := hc.hgt
  have hr := h.hgt
  have pl : p ≠ c := by intro e; subst e; omega
  have pr : p ≠ r := by intro e; subst e; omega
  exact ⟨ip, by rw [view_ne pl pr]; exact u1, u1, u2, pl, pr, ho, hh, idx, hidx, hcl⟩

/-! ## The parent has room -/

theorem insertParent_inv (h : Pend t G l r s il ir) {p : Nat} (hp : t.parent l = some p) {idx : Nat}
    (hidx : idx ≤ (t.arr p).nkeys) (hcl : (t.arr p).child idx = some l) (hroom : (t.arr p).nkeys < 15)
    (rf lf : Nat → Bool)
    (hrf : ∀ y, y ≠ l → y ≠ r → rf y = t.rootf y)
    (hlf : ∀ y, y ≠ l → y ≠ r → lf y = t.locked y) (hlfl : lf l = false) (hlfr : lf r = false) :
    let t' : Tree V := { t with
      rootf := rf, locked := lf, parent := upd t.parent r (some p),
      arr := upd t.arr p (insertKeyAndChild (t.arr p) idx s (some r)) }
    Inv0 t' G ∧ Frame t G t' G ∧ (RU t (view G l r) → RU t' G) := by
  intro t'
  have I := h.inv
  obtain ⟨ip, u1, u2, u3, pl, pr, ho, hh, _⟩ := h.parent_ne hp
  have W := virt h u1 ho idx hidx hcl
  have hne := h.ne
  have hpar : ∀ y, y ≠ r → t'.parent y = t.parent y := fun y hy => updN hy
  have hparr : t'.parent r = some p := updS
  have harr : ∀ y, y ≠ p → t'.arr y = t.arr y := fun y hy => updN hy
  have harrp : t'.arr p = insertKeyAndChild (t.arr p) idx s (some r) := updS
  have hk' : ∀ j, j < (t.arr p).nkeys + 1 → (t'.arr p).ikey j = vkey (t.arr p) idx s j := by
    intro j hj; rw [harrp, Verif.Internode.insert_ikey _ _ _ _ hidx j (by omega)]; rfl
  have hc' : ∀ j, j ≤ (t.arr p).nkeys + 1 → (t'.arr p).child j = vchild (t.arr p) idx (some r) j := by
    intro j hj; rw [harrp, Verif.Internode.insert_child _ _ _ _ hidx j (by omega)]; rfl
  have hn' : (t'.arr p).nkeys = (t.arr p).nkeys + 1 := by rw [harrp]; rfl
  have hgt' : ∀ y, Verif.Tree.hgt t' y = Verif.Tree.hgt t y := fun y => rfl
  have hvG : ∀ y i, view G l r y = some i → y ≠ l → G y = some i := by
    intro y i hy hyl
    by_cases e : y = r
    · subst e; rw [view_r] at hy; cases hy
    · rwa [view_ne hyl e] at hy
  refine ⟨?_, ?_, ?_⟩
  · constructor
    · exact I.dom
    · intro x i hx; exact I.lt hx
    · exact I.kind
    · exact I.hgt
    · exact I.pfx8
    · exact I.lohi
    · exact I.body
    · exact I.layer
    · intro y i hk hy
      have L := I.link y i hk hy
      refine ⟨fun z hz => ?_, L.nonext, L.prev, L.slot0, L.noprev⟩
      obtain ⟨iz, N⟩ := L.next z hz
      exact ⟨iz, N.dom, N.kind, N.pfx, N.lo, N.prev, N.tight⟩
    · intro y i hk hy
      by_cases e : y = p
      · subst e
        rw [u2] at hy; cases hy
        refine ⟨by omega, by omega, ?_, ?_, ?_, ?_, ?_, ?_⟩
        · rcases ho.fill with g | g
          · left; omega
          · right; rw [hpar y pr]; exact g
        · intro j hj; rw [hk' j (by omega)]; exact W.klo j (by omega)
        · intro j hj; rw [hk' j (by omega)]; exact W.khi j (by omega)
        · intro j j' h1 h2; rw [hk' j (by omega), hk' j' (by omega)]; exact W.sorted j j' h1 (by omega)
        · intro j hj
          obtain ⟨c, ic, g1, g2, g3, g4, g5, g6, g7⟩ := W.child j (by omega)
          refine ⟨c, ic, by rw [hc' j (by omega)]; exact g1, g2, ?_, g4, g5, ?_, ?_⟩
          · rcases g3 with g3 | ⟨g3, g3'⟩
            · rw [g3]; exact hparr
            · rw [hpar c g3]; exact g3'
          · rw [g6]; unfold clo
            by_cases e0 : j = 0
            · rw [if_pos e0, if_pos e0]
            · rw [if_neg e0, if_neg e0, hk' _ (by omega)]
          · rw [g7]; unfold chi; rw [hn']
            by_cases e0 : j = (t.arr y).nkeys + 1
            · rw [if_pos e0, if_pos e0]
            · rw [if_neg e0, if_neg e0, hk' _ (by omega)]
        · intro j j' h1 h2 e
          rw [hc' j (by omega), hc' j' (by omega)] at e
          exact W.inj j j' (by omega) (by omega) e
      · rw [harr y e]
        refine (I.inode y i hk hy).congr ?_ ?_ (hgt' y)
        · intro hf
          by_cases er : y = r
          · subst er; exact Or.inl (h.fill (by rw [← h.kind]; exact hk)).2
          · rw [hpar y er]; exact hf
        · intro c ic h1 h2
          have cl : c ≠ l := by intro ec; subst ec; rw [hp] at h2; cases h2; exact e rfl
          have cr : c ≠ r := by intro ec; subst ec; rw [view_r] at h1; cases h1
          exact ⟨hvG c ic h1 cl, by rw [hpar c cr]; exact h2, hgt' c⟩
    · intro y i hy
      by_cases er : y = r
      · subst er
        obtain ⟨j, hj, hcj⟩ := W.hasr
        refine ⟨fun q hq => ?_, fun hq => by rw [hparr] at hq; cases hq⟩
        rw [hparr] at hq; cases hq
        exact ⟨ip, u2, u3, j, by omega, by rw [hc' j hj]; exact hcj⟩
      · have hv : ∃ i', view G l r y = some i' ∧ (y ≠ l → i' = i) := by
          by_cases el : y = l
          · subst el; exact ⟨_, h.view_l, fun h => absurd rfl h⟩
          · exact ⟨i, by rw [view_ne el er]; exact hy, fun _ => rfl⟩
        obtain ⟨i', hv, hvi⟩ := hv
        have U := I.up y i' hv
        constructor
        · intro q hq
          rw [hpar y er] at hq
          by_cases eq : q = p
          · subst eq
            obtain ⟨j, hj, hcj⟩ := W.all y er (by rw [hv]; simp) hq
            exact ⟨ip, u2, u3, j, by omega, by rw [hc' j hj]; exact hcj⟩
          · obtain ⟨iq, v1, v2, v3⟩ := U.child q hq
            rw [harr q eq]
            exact ⟨iq, v1, v2, v3⟩
        · intro hq
          rw [hpar y er] at hq
          have el : y ≠ l := by intro e; rw [e, hp] at hq; cases hq
          obtain ⟨v1, v2⟩ := U.top hq
          rw [hvi el] at v2
          exact ⟨by show rf y = true; rw [hrf y el er]; exact v1, v2⟩
    · obtain ⟨i, r1, r2, r3⟩ := I.root
      have rl : t.root ≠ l := by intro e; rw [e, hp] at r3; cases r3
      have rr : t.root ≠ r := by intro e; rw [e, view_r] at r1; cases r1
      exact ⟨i, hvG _ _ r1 rl, r2, by show t'.parent t.root = none; rw [hpar _ rr]; exact r3⟩
    · intro y hy
      show lf y = true ↔ False
      have : lf y = false := by
        by_cases el : y = l
        · rw [el]; exact hlfl
        · by_cases er : y = r
          · rw [er]; exact hlfr
          · rw [hlf y el er]
            cases hq : t.locked y with
            | false => rfl
            | true =>
              rcases (I.locks y hy).1 hq with g | g
              · exact absurd g el
              · exact absurd g er
      rw [this]; simp
  · refine ⟨rfl, rfl, rfl, rfl, Nat.le_refl _, fun x hx => rfl, fun x i hx => ⟨i, hx, rfl⟩, fun x i _ hx => hx, ?_,
      fun x i hx => ⟨i, hx, rfl, rfl, fun _ => id⟩⟩
    intro x h1 h2
    have h2 : x < t.fresh := h2
    omega
  · intro ru x y ix iy hx hy hpx hpy hpf
    have xr : x ≠ r := by intro e; rw [e, hparr] at hpx; cases hpx
    have yr : y ≠ r := by intro e; rw [e, hparr] at hpy; cases hpy
    rw [hpar x xr] at hpx; rw [hpar y yr] at hpy
    have xl : x ≠ l := by intro e; rw [e, hp] at hpx; cases hpx
    have yl : y ≠ l := by intro e; rw [e, hp] at hpy; cases hpy
    exact ru x y ix iy (by rw [view_ne xl xr]; exact hx) (by rw [view_ne yl yr]; exact hy) hpx hpy hpf

/-! ## The parent is full: it is split in turn -/

theorem splitParent_pend (h : Pend t G l r s il ir) {p : Nat} (hp : t.parent l = some p) {ip : Info} (hip : G p = some ip)
    {idx : Nat} (hidx : idx ≤ (t.arr p).nkeys) (hcl : (t.arr p).child idx = some l) (hfull : (t.arr p).nkeys = 15)
    (la ra : Arr (Option Nat)) (popup : Nat)
    (hnl : la.nkeys = 8) (hnr : ra.nkeys = 7)
    (hkl : ∀ j, j < 8 → la.ikey j = vkey (t.arr p) idx s j)
    (hcL : ∀ j, j ≤ 8 → la.child j = vchild (t.arr p) idx (some r) j)
    (hpop : popup = vkey (t.arr p) idx s 8)
    (hkr : ∀ j, j < 7 → ra.ikey j = vkey (t.arr p) idx s (9 + j))
    (hcR : ∀ j, j ≤ 7 → ra.child j = vchild (t.arr p) idx (some r) (9 + j))
    (rf lf : Nat → Bool) (par : Nat → Option Nat)
    (hrf : ∀ y, y ≠ l → y ≠ r → y ≠ t.fresh → rf y = t.rootf y)
    (hlf : ∀ y, y ≠ l → y ≠ r → y ≠ t.fresh → y ≠ p → lf y = t.locked y) (hlfl : lf l = false) (hlfr : lf r = false)
    (hlfp : lf p = true) (hlfn : lf t.fresh = true)
    (hparR : ∀ y j, j ≤ 7 → ra.child j = some y → par y = some t.fresh)
    (hparr : ∀ j, j ≤ 8 → la.child j = some r → par r = some p)
    (hparO : ∀ y, y ≠ r → y ≠ t.fresh → (∀ j, j ≤ 7 → ra.child j ≠ some y) → par y = t.parent y) :
    let t' : Tree V := { t with
      kind := upd t.kind t.fresh (some .inode), rootf := rf, locked := lf, parent := par,
      height := upd t.height t.fresh (t.height p), arr := upd (upd t.arr p la) t.fresh ra, fresh := t.fresh + 1 }
    let G' : Ghost := upd (upd G p (some ⟨ip.pfx, ip.lo, some popup⟩)) t.fresh (some ⟨ip.pfx, popup, ip.hi⟩)
    Pend t' G' p t.fresh popup ⟨ip.pfx, ip.lo, some popup⟩ ⟨ip.pfx, popup, ip.hi⟩ ∧ Frame t G t' G' ∧
      (RU t (view G l r) → RU t' (view G' p t.fresh)) := by
  intro t' G'
  have I := h.inv
  obtain ⟨ip', u1, u2, u3, pl, pr, ho, hh, _⟩ := h.parent_ne hp
  have : ip' = ip := by rw [hip] at u2; cases u2; rfl
  subst this
  have W := virt h u1 ho idx hidx hcl
  rw [hfull] at W
  have hne := h.ne
  have hpl := I.lt hip
  have hll := I.lt h.gl
  have hrl := I.lt h.gr
  have nf : p ≠ t.fresh := by omega
  have hGn : G' t.fresh = some ⟨ip'.pfx, popup, ip'.hi⟩ := updS
  have hGp : G' p = some ⟨ip'.pfx, ip'.lo, some popup⟩ := by
    show upd (upd G p _) t.fresh _ p = _
    rw [updN nf, updS]
  have hG : ∀ y, y ≠ t.fresh → y ≠ p → G' y = G y := by
    intro y h1 h2
    show upd (upd G p _) t.fresh _ y = _
    rw [updN h1, updN h2]
  have hE : ∀ y, y ≠ t.fresh → view G' p t.fresh y = G y := by
    intro y h1
    unfold view
    rw [if_neg h1]
    by_cases e : y = p
    · subst e; rw [if_pos rfl, hGp, hGn, hip]
    · rw [if_neg e, hG y h1 e]
  have hEn : view G' p t.fresh t.fresh = none := view_r
  have hElt : ∀ y i, G y = some i → view G' p t.fresh y = some i := by
    intro y i hy; rw [hE y (by have := I.lt hy; omega)]; exact hy
  have hmono' : ∀ x i, G x = some i → ∃ i', G' x = some i' ∧ i'.pfx = i.pfx ∧ i'.lo = i.lo ∧ ∀ z, ltHi z i'.hi → ltHi z i.hi := by
    intro x i hx
    have xf : x ≠ t.fresh := by have := I.lt hx; omega
    by_cases e : x = p
    · subst e; rw [hip] at hx; cases hx; refine ⟨_, hGp, rfl, rfl, fun z hz w hw => ?_⟩
      have h1 := W.khi 8 (by omega)
      rw [← hpop] at h1
      exact Nat.lt_of_lt_of_le (hz popup rfl) (h1 w hw)
    · exact ⟨i, by rw [hG x xf e]; exact hx, rfl, rfl, fun _ => id⟩
  have hmono : ∀ x i, G x = some i → ∃ i', G' x = some i' ∧ i'.pfx = i.pfx := fun x i hx =>
    let ⟨i', a, b, _, _⟩ := hmono' x i hx
    ⟨i', a, b⟩
  have hkind : ∀ y, y ≠ t.fresh → t'.kind y = t.kind y := fun y hy => updN hy
  have hkn : t'.kind t.fresh = some .inode := updS
  have hh' : ∀ y, y ≠ t.fresh → Verif.Tree.hgt t' y = Verif.Tree.hgt t y := by
    intro y hy
    have e : t'.height y = t.height y := updN hy
    simp only [Verif.Tree.hgt, hkind y hy, e]
  have hhn : Verif.Tree.hgt t' t.fresh = Verif.Tree.hgt t p := by
    rw [hgt_inode hkn, hgt_inode u3]
    show upd t.height t.fresh (t.height p) t.fresh + 1 = _
    rw [updS]
  have harr : ∀ y, y ≠ t.fresh → y ≠ p → t'.arr y = t.arr y := by
    intro y h1 h2
    show upd (upd t.arr p la) t.fresh ra y = _
    rw [updN h1, updN h2]
  have harrp : t'.arr p = la := by
    show upd (upd t.arr p la) t.fresh ra p = _
    rw [updN nf, updS]
  have harrn : t'.arr t.fresh = ra := updS
  have hvG : ∀ y i, view G l r y = some i → y ≠ l → G y = some i := by
    intro y i hy hyl
    by_cases e : y = r
    · subst e; rw [view_r] at hy; cases hy
    · rwa [view_ne hyl e] at hy
  -- children in the left half are not in the right half
  have disj : ∀ j j', j ≤ 8 → j' ≤ 7 → la.child j ≠ ra.child j' := by
    intro j j' h1 h2 e
    rw [hcL j h1, hcR j' h2] at e
    have := W.inj j (9 + j') (by omega) (by omega) e
    omega
  -- parent pointers that are not below p do not change
  have parO : ∀ y q iy, view G l r y = some iy → t.parent y = some q → q ≠ p → par y = some q := by
    intro y q iy hy hq hqp
    have yr : y ≠ r := by intro e; subst e; rw [view_r] at hy; cases hy
    have yf : y ≠ t.fresh := by have := I.sub y iy hy; omega
    rw [hparO y yr yf ?_]; exact hq
    intro j hj e
    rw [hcR j hj] at e
    obtain ⟨c, ic, g1, g2, g3, _⟩ := W.child (9 + j) (by omega)
    rw [g1] at e; cases e
    rcases g3 with g3 | g3
    · exact yr g3
    · rw [hq] at g3; exact hqp (Option.some.inj g3.2)
  have parN : ∀ y iy, view G l r y = some iy → t.parent y = none → par y = none := by
    intro y iy hy hq
    have yr : y ≠ r := by intro e; subst e; rw [view_r] at hy; cases hy
    have yf : y ≠ t.fresh := by have := I.sub y iy hy; omega
    rw [hparO y yr yf ?_]; exact hq
    intro j hj e
    rw [hcR j hj] at e
    obtain ⟨c, ic, g1, g2, g3, _⟩ := W.child (9 + j) (by omega)
    rw [g1] at e; cases e
    rcases g3 with g3 | g3
    · exact yr g3
    · rw [hq] at g3; cases g3.2
  have popLo : ip'.lo ≤ popup := by rw [hpop]; exact W.klo 8 (by omega)
  have popHi : leHi popup ip'.hi := by rw [hpop]; exact W.khi 8 (by omega)
  have inv : Inv t' G' (view G' p t.fresh) (fun x => x = p ∨ x = t.fresh) := by
    constructor
    · intro y
      show _ ↔ y < t.fresh + 1
      by_cases e : y = t.fresh
      · subst e; exact ⟨fun _ => by omega, fun _ => ⟨_, hGn⟩⟩
      · by_cases e2 : y = p
        · subst e2; exact ⟨fun _ => by omega, fun _ => ⟨_, hGp⟩⟩
        · rw [hG y e e2, I.dom y]; omega
    · intro y i hy
      show y < t.fresh + 1
      by_cases e : y = t.fresh
      · omega
      · rw [hE y e] at hy; have := I.lt hy; omega
    · intro y hy
      have hy : y < t.fresh + 1 := hy
      by_cases e : y = t.fresh
      · subst e; rw [hkn]; simp
      · rw [hkind y e]; exact I.kind y (by omega)
    · intro y hy
      have hy : y < t.fresh + 1 := hy
      show _ < t.fresh + 1
      by_cases e : y = t.fresh
      · subst e; rw [hhn]; have := I.hgt p hpl; omega
      · rw [hh' y e]; have := I.hgt y (by omega); omega
    · intro y i hy
      by_cases e : y = t.fresh
      · subst e; rw [hGn] at hy; cases hy; exact I.pfx8 p ip' hip
      · by_cases e2 : y = p
        · subst e2; rw [hGp] at hy; cases hy; exact I.pfx8 y ip' hip
        · rw [hG y e e2] at hy; exact I.pfx8 y i hy
    · intro y i hy
      by_cases e : y = t.fresh
      · subst e; rw [hGn] at hy; cases hy; exact popHi
      · by_cases e2 : y = p
        · subst e2; rw [hGp] at hy; cases hy; simpa using popLo
        · rw [hG y e e2] at hy; exact I.lohi y i hy
    · intro y i hk hy
      by_cases e : y = t.fresh
      · subst e; rw [hkn] at hk; cases hk
      · rw [hkind y e] at hk
        have e2 : y ≠ p := by intro e2; subst e2; rw [u3] at hk; cases hk
        rw [hG y e e2] at hy; exact I.body y i hk hy
    · intro y i hk hy
      by_cases e : y = t.fresh
      · subst e; rw [hkn] at hk; cases hk
      · rw [hkind y e] at hk
        have e2 : y ≠ p := by intro e2; subst e2; rw [u3] at hk; cases hk
        rw [hG y e e2] at hy
        exact (I.layer y i hk hy).mono hmono
    · intro y i hk hy
      by_cases e : y = t.fresh
      · subst e; rw [hkn] at hk; cases hk
      · rw [hkind y e] at hk
        have e2 : y ≠ p := by intro e2; subst e2; rw [u3] at hk; cases hk
        rw [hG y e e2] at hy
        have L := I.link y i hk hy
        have keep : ∀ z iz, t.kind z = some .leaf → G z = some iz → G' z = some iz ∧ t'.kind z = some .leaf := by
          intro z iz kz gz
          have z1 : z ≠ t.fresh := by have := I.lt gz; omega
          have z2 : z ≠ p := by intro e2; subst e2; rw [u3] at kz; cases kz
          exact ⟨by rw [hG z z1 z2]; exact gz, by rw [hkind z z1]; exact kz⟩
        refine ⟨fun z hz => ?_, L.nonext, fun w hw => ?_, L.slot0, L.noprev⟩
        · obtain ⟨iz, N⟩ := L.next z hz
          obtain ⟨k1, k2⟩ := keep z iz N.kind N.dom
          exact ⟨iz, k1, k2, N.pfx, N.lo, N.prev, N.tight⟩
        · obtain ⟨w1, w2, iw, w3⟩ := L.prev w hw
          obtain ⟨k1, k2⟩ := keep w iw w2 w3
          exact ⟨w1, k2, iw, k1⟩
    · intro y i hk hy
      by_cases e : y = t.fresh
      · subst e; rw [hGn] at hy; cases hy; rw [harrn]
        refine ⟨by omega, by omega, Or.inl (by omega), ?_, ?_, ?_, ?_, ?_⟩
        · intro j hj
          show popup ≤ _
          rw [hkr j (by omega), hpop]; exact W.sorted 8 (9 + j) (by omega) (by omega)
        · intro j hj; rw [hkr j (by omega)]; exact W.khi (9 + j) (by omega)
        · intro j j' h1 h2; rw [hkr j (by omega), hkr j' (by omega)]; exact W.sorted _ _ (by omega) (by omega)
        · intro j hj
          obtain ⟨c, ic, g1, g2, g3, g4, g5, g6, g7⟩ := W.child (9 + j) (by omega)
          have hcj : ra.child j = some c := by rw [hcR j (by omega)]; exact g1
          have cf : c ≠ t.fresh := by have := I.lt g2; omega
          refine ⟨c, ic, hcj, hElt c ic g2, hparR c j (by omega) hcj, g4, by rw [hhn, hh' c cf]; exact g5, ?_, ?_⟩
          · rw [g6, if_neg (by omega)]; unfold clo
            by_cases e0 : j = 0
            · rw [if_pos e0, e0]; exact hpop.symm
            · rw [if_neg e0, hkr _ (by omega)]; congr 1; omega
          · rw [g7]; unfold chi; rw [hnr]
            by_cases e0 : j = 7
            · rw [if_pos e0, if_pos (by omega)]
            · rw [if_neg e0, if_neg (by omega), hkr _ (by omega)]
        · intro j j' h1 h2 e
          rw [hcR j (by omega), hcR j' (by omega)] at e
          have := W.inj _ _ (by omega) (by omega) e; omega
      · by_cases e2 : y = p
        · subst e2; rw [hGp] at hy; cases hy; rw [harrp]
          refine ⟨by omega, by omega, Or.inl (by omega), ?_, ?_, ?_, ?_, ?_⟩
          · intro j hj; rw [hkl j (by omega)]; exact W.klo j (by omega)
          · intro j hj; rw [hkl j (by omega), hpop]; simp only [leHi_some]; exact W.sorted j 8 (by omega) (by omega)
          · intro j j' h1 h2; rw [hkl j (by omega), hkl j' (by omega)]; exact W.sorted _ _ (by omega) (by omega)
          · intro j hj
            obtain ⟨c, ic, g1, g2, g3, g4, g5, g6, g7⟩ := W.child j (by omega)
            have hcj : la.child j = some c := by rw [hcL j (by omega)]; exact g1
            have cf : c ≠ t.fresh := by have := I.lt g2; omega
            refine ⟨c, ic, hcj, hElt c ic g2, ?_, g4, by rw [hh' y nf, hh' c cf]; exact g5, ?_, ?_⟩
            · show par c = some y
              rcases g3 with g3 | ⟨g3, g3'⟩
              · subst g3; exact hparr j (by omega) hcj
              · rw [hparO c g3 cf (fun j' hj' e => disj j j' (by omega) hj' (hcj.trans e.symm))]; exact g3'
            · rw [g6]; unfold clo
              by_cases e0 : j = 0
              · rw [if_pos e0, if_pos e0]
              · rw [if_neg e0, if_neg e0, hkl _ (by omega)]
            · rw [g7, if_neg (by omega)]; unfold chi; rw [hnl]
              by_cases e0 : j = 8
              · rw [if_pos e0, e0, hpop]
              · rw [if_neg e0, hkl _ (by omega)]
          · intro j j' h1 h2 e
            rw [hcL j (by omega), hcL j' (by omega)] at e
            exact W.inj _ _ (by omega) (by omega) e
        · rw [hG y e e2] at hy; rw [hkind y e] at hk; rw [harr y e e2]
          refine (I.inode y i hk hy).congr ?_ ?_ (hh' y e)
          · intro hf
            by_cases er : y = r
            · subst er; exact Or.inl (h.fill (by rw [← h.kind]; exact hk)).2
            · by_cases el : y = l
              · subst el; exact Or.inl (h.fill hk).1
              · refine Or.imp id (fun hpn => ?_) hf
                exact parN y i (by rw [view_ne el er]; exact hy) hpn
          · intro c ic h1 h2
            have cl : c ≠ l := by intro ec; subst ec; rw [hp] at h2; cases h2; exact e2 rfl
            have cG := hvG c ic h1 cl
            have cf : c ≠ t.fresh := by have := I.lt cG; omega
            exact ⟨hElt c ic cG, parO c y ic h1 h2 e2, hh' c cf⟩
    · intro y i hy
      have e : y ≠ t.fresh := by intro e; rw [e, hEn] at hy; cases hy
      rw [hE y e] at hy
      have below : (∃ j, j ≤ 16 ∧ vchild (t.arr p) idx (some r) j = some y) → UpOK t' G' y i := by
        intro hj
        obtain ⟨j, hj, hcj⟩ := hj
        by_cases c8 : j ≤ 8
        · have hl8 : la.child j = some y := by rw [hcL j c8]; exact hcj
          have hpy : par y = some p := by
            obtain ⟨c, ic, g1, g2, g3, _⟩ := W.child j (by omega)
            rw [hcj] at g1; cases g1
            rcases g3 with g3 | ⟨g3, g3'⟩
            · subst g3; exact hparr j c8 hl8
            · rw [hparO _ g3 e (fun j' hj' e' => disj j j' c8 hj' (hl8.trans e'.symm))]; exact g3'
          refine ⟨fun q hq => ?_, fun hq => ?_⟩
          · have hq : par y = some q := hq
            rw [hpy] at hq; cases hq
            exact ⟨_, hGp, by rw [hkind p nf]; exact u3, j, by rw [harrp]; omega, by rw [harrp]; exact hl8⟩
          · have hq : par y = none := hq
            rw [hpy] at hq; cases hq
        · have hr8 : ra.child (j - 9) = some y := by
            rw [hcR (j - 9) (by omega)]
            rw [show 9 + (j - 9) = j by omega]; exact hcj
          have hpy := hparR y (j - 9) (by omega) hr8
          refine ⟨fun q hq => ?_, fun hq => ?_⟩
          · have hq : par y = some q := hq
            rw [hpy] at hq; cases hq
            exact ⟨_, hGn, hkn, j - 9, by rw [harrn]; omega, by rw [harrn]; exact hr8⟩
          · have hq : par y = none := hq
            rw [hpy] at hq; cases hq
      by_cases er : y = r
      · subst er; exact below W.hasr
      · have hv : ∃ i', view G l r y = some i' ∧ (y ≠ l → i' = i) := by
          by_cases el : y = l
          · subst el; exact ⟨_, h.view_l, fun h => absurd rfl h⟩
          · exact ⟨i, by rw [view_ne el er]; exact hy, fun _ => rfl⟩
        obtain ⟨i', hv, hvi⟩ := hv
        cases hpy : t.parent y with
        | none =>
          have el : y ≠ l := by intro e; rw [e, hp] at hpy; cases hpy
          have U := (I.up y i' hv).top hpy
          rw [hvi el] at U
          have hq' := parN y i' hv hpy
          refine ⟨fun q hq => ?_, fun _ => ⟨?_, U.2⟩⟩
          · have hq : par y = some q := hq
            rw [hq'] at hq; cases hq
          · show rf y = true
            rw [hrf y el er e]; exact U.1
        | some q =>
          by_cases eq : q = p
          · subst eq
            obtain ⟨j, hj, hcj⟩ := W.all y er (by rw [hv]; simp) hpy
            exact below ⟨j, hj, hcj⟩
          · have hq' := parO y q i' hv hpy eq
            refine ⟨fun q' hqq => ?_, fun hqq => ?_⟩
            · have hqq : par y = some q' := hqq
              rw [hq'] at hqq; cases hqq
              obtain ⟨iq, v1, v2, v3⟩ := (I.up y i' hv).child q hpy
              have qf : q ≠ t.fresh := by have := I.lt v1; omega
              exact ⟨iq, by rw [hG q qf eq]; exact v1, by rw [hkind q qf]; exact v2, by rw [harr q qf eq]; exact v3⟩
            · have hqq : par y = none := hqq
              rw [hq'] at hqq; cases hqq
    · obtain ⟨i, r1, r2, r3⟩ := I.root
      have rl : t.root ≠ l := by intro e; rw [e, hp] at r3; cases r3
      exact ⟨i, hElt _ _ (hvG _ _ r1 rl), r2, parN _ _ r1 r3⟩
    · intro y hy
      have hy : y < t.fresh + 1 := hy
      show lf y = true ↔ (y = p ∨ y = t.fresh)
      by_cases e : y = t.fresh
      · subst e; rw [hlfn]; simp
      · by_cases e2 : y = p
        · subst e2; rw [hlfp]; simp
        · have : lf y = false := by
            by_cases el : y = l
            · rw [el]; exact hlfl
            · by_cases er : y = r
              · rw [er]; exact hlfr
              · rw [hlf y el er e e2]
                cases hq : t.locked y with
                | false => rfl
                | true =>
                  rcases (I.locks y (by omega)).1 hq with g | g
                  · exact absurd g el
                  · exact absurd g er
          rw [this]; simp [e, e2]
  refine ⟨⟨inv, hGp, hGn, rfl, rfl, rfl, nf, by rw [hhn, hh' p nf], by rw [hkn, hkind p nf, u3], ?_⟩, ?_, ?_⟩
  · intro _; rw [harrp, harrn]; omega
  · refine ⟨rfl, rfl, rfl, rfl, by show t.fresh ≤ t.fresh + 1; omega, fun x hx => hkind x (by omega), hmono, ?_, ?_, hmono'⟩
    · intro x i hk hx
      have x1 : x ≠ t.fresh := by have := I.lt hx; omega
      have x2 : x ≠ p := by intro e2; subst e2; rw [u3] at hk; cases hk
      rw [hG x x1 x2]; exact hx
    · intro x h1 h2
      have h2 : x < t.fresh + 1 := h2
      have : x = t.fresh := by omega
      subst this
      exact ⟨hkn, _, p, ip', hGn, hip, rfl⟩
  · intro ru x y ix iy hx hy hpx hpy hpf
    have parNone : ∀ z iz, view G' p t.fresh z = some iz → par z = none → t.parent z = none ∧ view G l r z = some iz := by
      intro z iz hz hpz
      have zf : z ≠ t.fresh := by intro e; rw [e, hEn] at hz; cases hz
      rw [hE z zf] at hz
      have below : ∀ j, j ≤ 16 → vchild (t.arr p) idx (some r) j = some z → False := by
        intro j hj hcj
        by_cases c8 : j ≤ 8
        · have hl8 : la.child j = some z := by rw [hcL j c8]; exact hcj
          obtain ⟨c, ic, g1, g2, g3, _⟩ := W.child j (by omega)
          rw [hcj] at g1; cases g1
          rcases g3 with g3 | ⟨g3, g3'⟩
          · subst g3; rw [hparr j c8 hl8] at hpz; cases hpz
          · rw [hparO _ g3 zf (fun j' hj' e' => disj j j' c8 hj' (hl8.trans e'.symm)), g3'] at hpz; cases hpz
        · have hr8 : ra.child (j - 9) = some z := by
            rw [hcR (j - 9) (by omega)]
            rw [show 9 + (j - 9) = j by omega]; exact hcj
          rw [hparR z (j - 9) (by omega) hr8] at hpz; cases hpz
      have zr : z ≠ r := by
        intro e; subst e
        obtain ⟨j, hj, hcj⟩ := W.hasr
        exact below j hj hcj
      have hn : t.parent z = none := by
        have := hparO z zr zf (fun j hj e => by rw [hparR z j hj e] at hpz; cases hpz)
        rw [← this]; exact hpz
      have zl : z ≠ l := by intro e; rw [e, hp] at hn; cases hn
      exact ⟨hn, by rw [view_ne zl zr]; exact hz⟩
    obtain ⟨x1, x2⟩ := parNone x ix hx hpx
    obtain ⟨y1, y2⟩ := parNone y iy hy hpy
    exact ru x y ix iy x2 y2 x1 y1 hpf

end Verif.Tree
