import Verif.Proof.TreeSplit
set_option linter.unusedSimpArgs false
set_option linter.unusedVariables false
/-!
# Creating a sublayer
-/
namespace Verif.Tree
open Verif.Spec (Bytes chunk lenClass)
open Verif.Internode (Arr upd)
open Verif.Perm (size get back backAtOffset insertFromBack swapFreeSlots setSize makeSorted24 params24)
variable {V : Type}
variable {t : Tree V} {G : Ghost}

/-- `t'` is `t` with some more leaves, each the root of its own layer. -/
structure Added (t t' : Tree V) : Prop where
  fresh : t.fresh ≤ t'.fresh
  root : t'.root = t.root
  count : t'.count = t.count
  kind : ∀ x, x < t.fresh → t'.kind x = t.kind x
  rootf : ∀ x, x < t.fresh → t'.rootf x = t.rootf x
  locked : ∀ x, x < t.fresh → t'.locked x = t.locked x
  parent : ∀ x, x < t.fresh → t'.parent x = t.parent x
  next : ∀ x, x < t.fresh → t'.next x = t.next x
  prev : ∀ x, x < t.fresh → t'.prev x = t.prev x
  body : ∀ x, x < t.fresh → t'.body x = t.body x
  height : ∀ x, x < t.fresh → t'.height x = t.height x
  arr : ∀ x, x < t.fresh → t'.arr x = t.arr x
  kindN : ∀ x, t.fresh ≤ x → x < t'.fresh → t'.kind x = some .leaf
  rootfN : ∀ x, t.fresh ≤ x → x < t'.fresh → t'.rootf x = true
  lockedN : ∀ x, t.fresh ≤ x → x < t'.fresh → t'.locked x = false
  parentN : ∀ x, t.fresh ≤ x → x < t'.fresh → t'.parent x = none
  nextN : ∀ x, t.fresh ≤ x → x < t'.fresh → t'.next x = none
  prevN : ∀ x, t.fresh ≤ x → x < t'.fresh → t'.prev x = none

theorem Added.hgt {t t' : Tree V} (A : Added t t') {x : Nat} (hx : x < t.fresh) : hgt t' x = Verif.Tree.hgt t x := by
  simp only [Verif.Tree.hgt, A.kind x hx, A.height x hx]

theorem Inv.addLeaves {t t' : Tree V} {lk : Nat → Prop} (h : Inv t G G lk) (A : Added t t') {G' : Ghost} {lay : Nat → Layer}
    (hlk : ∀ y, t.fresh ≤ y → ¬ lk y) (hold : ∀ x, x < t.fresh → G' x = G x)
    (hnew : ∀ x, t.fresh ≤ x → x < t'.fresh → G' x = some ⟨lay x, 0, none⟩) (hnone : ∀ x, t'.fresh ≤ x → G' x = none)
    (hp : ∀ x, t.fresh ≤ x → x < t'.fresh → (lay x).bytes.length % 8 = 0)
    (hb : ∀ x, t.fresh ≤ x → x < t'.fresh → BodyOK (t'.body x) 0 none)
    (hl : ∀ x, t.fresh ≤ x → x < t'.fresh → LayerOK G' (lay x).bytes (t'.body x)) : Inv t' G' G' lk := by
  have hlt' : ∀ x i, G' x = some i → x < t'.fresh := by
    intro x i hx
    by_contra c
    rw [hnone x (by omega)] at hx; cases hx
  have hf := A.fresh
  have hmono : ∀ q iq, G q = some iq → G' q = some iq := by
    intro q iq hq; rw [hold q (h.lt hq)]; exact hq
  have hmono' : ∀ q iq, G q = some iq → ∃ iq', G' q = some iq' ∧ iq'.pfx = iq.pfx := fun q iq hq => ⟨iq, hmono q iq hq, rfl⟩
  constructor
  · intro x
    constructor
    · rintro ⟨i, hx⟩; exact hlt' x i hx
    · intro hx
      by_cases c : x < t.fresh
      · rw [hold x c]; exact (h.dom x).2 c
      · exact ⟨_, hnew x (by omega) hx⟩
  · exact hlt'
  · intro x hx
    by_cases c : x < t.fresh
    · rw [A.kind x c]; exact h.kind x c
    · rw [A.kindN x (by omega) hx]; simp
  · intro x hx
    by_cases c : x < t.fresh
    · rw [A.hgt c]; have := h.hgt x c; omega
    · rw [hgt_leaf (A.kindN x (by omega) hx)]; omega
  · intro x i hx
    by_cases c : x < t.fresh
    · rw [hold x c] at hx; exact h.pfx8 x i hx
    · have hh := hlt' x i hx
      rw [hnew x (by omega) hh] at hx; cases hx
      exact hp x (by omega) hh
  · intro x i hx
    by_cases c : x < t.fresh
    · rw [hold x c] at hx; exact h.lohi x i hx
    · have hh := hlt' x i hx
      rw [hnew x (by omega) hh] at hx; cases hx
      simp
  · intro x i hk hx
    by_cases c : x < t.fresh
    · rw [hold x c] at hx; rw [A.kind x c] at hk; rw [A.body x c]; exact h.body x i hk hx
    · have hh := hlt' x i hx
      rw [hnew x (by omega) hh] at hx; cases hx
      exact hb x (by omega) hh
  · intro x i hk hx
    by_cases c : x < t.fresh
    · rw [hold x c] at hx; rw [A.kind x c] at hk; rw [A.body x c]; exact (h.layer x i hk hx).mono hmono'
    · have hh := hlt' x i hx
      rw [hnew x (by omega) hh] at hx; cases hx
      exact hl x (by omega) hh
  · intro x i hk hx
    by_cases c : x < t.fresh
    · rw [hold x c] at hx; rw [A.kind x c] at hk
      have L := h.link x i hk hx
      constructor
      · intro z hz
        rw [A.next x c] at hz
        obtain ⟨iz, N⟩ := L.next z hz
        have ez := h.lt N.dom
        exact ⟨iz, hmono z iz N.dom, by rw [A.kind z ez]; exact N.kind, N.pfx, N.lo, by rw [A.prev z ez]; exact N.prev,
          by rw [A.body x c]; exact N.tight⟩
      · rw [A.next x c]; exact L.nonext
      · intro w hw
        rw [A.prev x c] at hw
        obtain ⟨w1, w2, iw, w3⟩ := L.prev w hw
        have ew := h.lt w3
        exact ⟨by rw [A.next w ew]; exact w1, by rw [A.kind w ew]; exact w2, iw, hmono w iw w3⟩
      · rw [A.prev x c, A.body x c]; exact L.slot0
      · rw [A.prev x c]; exact L.noprev
    · have hh := hlt' x i hx
      rw [hnew x (by omega) hh] at hx; cases hx
      have e1 := A.nextN x (by omega) hh
      have e2 := A.prevN x (by omega) hh
      constructor
      · intro z hz; rw [e1] at hz; cases hz
      · intro _; rfl
      · intro w hw; rw [e2] at hw; cases hw
      · intro hw; exact absurd e2 hw
      · intro _; rfl
  · intro x i hk hx
    by_cases c : x < t.fresh
    · rw [hold x c] at hx; rw [A.kind x c] at hk; rw [A.arr x c]
      refine (h.inode x i hk hx).congr ?_ ?_ (A.hgt c)
      · rw [A.parent x c]; exact id
      · intro y iy h1 h2
        have ey := h.lt h1
        exact ⟨hmono y iy h1, by rw [A.parent y ey]; exact h2, A.hgt ey⟩
    · have hh := hlt' x i hx
      rw [A.kindN x (by omega) hh] at hk; cases hk
  · intro x i hx
    by_cases c : x < t.fresh
    · rw [hold x c] at hx
      have U := h.up x i hx
      constructor
      · intro p hpp
        rw [A.parent x c] at hpp
        obtain ⟨ip, u1, u2, u3⟩ := U.child p hpp
        have ep := h.lt u1
        exact ⟨ip, hmono p ip u1, by rw [A.kind p ep]; exact u2, by rw [A.arr p ep]; exact u3⟩
      · rw [A.parent x c, A.rootf x c]; exact U.top
    · have hh := hlt' x i hx
      rw [hnew x (by omega) hh] at hx; cases hx
      constructor
      · intro p hpp; rw [A.parentN x (by omega) hh] at hpp; cases hpp
      · intro _; exact ⟨A.rootfN x (by omega) hh, rfl, rfl⟩
  · obtain ⟨i, r1, r2, r3⟩ := h.root
    have er := h.lt r1
    rw [A.root]
    exact ⟨i, hmono _ i r1, r2, by rw [A.parent _ er]; exact r3⟩
  · intro x hx
    by_cases c : x < t.fresh
    · rw [A.locked x c]; exact h.locks x c
    · rw [A.lockedN x (by omega) hx]
      exact ⟨fun h => (by cases h), fun h' => absurd h' (hlk x (by omega))⟩

/-! ## The chain of single-entry leaves -/

/-- Body of a leaf of the chain before its pointer is stored. -/
def twigBody (ik : Nat) : Leaf V := { emptyLeaf with ikey := upd (fun _ => 0) 0 ik, perm := makeSorted24 1 }
/-- ... and after. -/
def linkBody (ik q : Nat) : Leaf V :=
  { (twigBody ik : Leaf V) with klx := upd (twigBody ik : Leaf V).klx 0 layerKeylenx,
                                cell := upd (twigBody ik : Leaf V).cell 0 (.layer q) }

/-- `t` is `t0` with a chain of `m` leaves; the last one has no pointer yet. `ch j` is the chunk in the `j`-th. -/
structure Chain (t0 : Tree V) (ch : Nat → Nat) (m : Nat) (t : Tree V) : Prop where
  added : Added t0 t
  fresh : t.fresh = t0.fresh + m
  body : ∀ j, j + 1 < m → t.body (t0.fresh + j) = linkBody (ch j) (t0.fresh + j + 1)
  last : ∀ j, j + 1 = m → t.body (t0.fresh + j) = twigBody (ch j)

theorem Added.refl (t : Tree V) : Added t t := by
  constructor <;> intros <;> first | rfl | omega

theorem Added.alloc {t0 t : Tree V} (A : Added t0 t) (b : Leaf V) : Added t0 (allocLeaf t true false b).1 := by
  have hf := A.fresh
  constructor
  · show t0.fresh ≤ t.fresh + 1; omega
  · exact A.root
  · exact A.count
  · exact fun x hx => (updN (by omega)).trans (A.kind x hx)
  · exact fun x hx => (updN (by omega)).trans (A.rootf x hx)
  · exact fun x hx => (updN (by omega)).trans (A.locked x hx)
  · exact fun x hx => (updN (by omega)).trans (A.parent x hx)
  · exact fun x hx => (updN (by omega)).trans (A.next x hx)
  · exact fun x hx => (updN (by omega)).trans (A.prev x hx)
  · exact fun x hx => (updN (by omega)).trans (A.body x hx)
  · exact A.height
  · exact A.arr
  · intro x h1 h2
    have h2 : x < t.fresh + 1 := h2
    by_cases e : x = t.fresh
    · subst e; exact updS
    · exact (updN e).trans (A.kindN x h1 (by omega))
  · intro x h1 h2
    have h2 : x < t.fresh + 1 := h2
    by_cases e : x = t.fresh
    · subst e; exact updS
    · exact (updN e).trans (A.rootfN x h1 (by omega))
  · intro x h1 h2
    have h2 : x < t.fresh + 1 := h2
    by_cases e : x = t.fresh
    · subst e; exact updS
    · exact (updN e).trans (A.lockedN x h1 (by omega))
  · intro x h1 h2
    have h2 : x < t.fresh + 1 := h2
    by_cases e : x = t.fresh
    · subst e; exact updS
    · exact (updN e).trans (A.parentN x h1 (by omega))
  · intro x h1 h2
    have h2 : x < t.fresh + 1 := h2
    by_cases e : x = t.fresh
    · subst e; exact updS
    · exact (updN e).trans (A.nextN x h1 (by omega))
  · intro x h1 h2
    have h2 : x < t.fresh + 1 := h2
    by_cases e : x = t.fresh
    · subst e; exact updS
    · exact (updN e).trans (A.prevN x h1 (by omega))

theorem Added.setBody {t0 t : Tree V} (A : Added t0 t) {x : Nat} (hx : t0.fresh ≤ x) (b : Leaf V) :
    Added t0 { t with body := upd t.body x b } := by
  refine ⟨A.fresh, A.root, A.count, A.kind, A.rootf, A.locked, A.parent, A.next, A.prev, ?_, A.height, A.arr,
    A.kindN, A.rootfN, A.lockedN, A.parentN, A.nextN, A.prevN⟩
  intro y hy
  show upd t.body x b y = _
  rw [updN (by omega)]; exact A.body y hy

/-- Where the head and the tail of the chain are. -/
def Ends (t0 : Tree V) (m : Nat) (head : Option Nat) (tail : Nat) : Prop :=
  (m = 0 ∧ head = none) ∨ (0 < m ∧ head = some t0.fresh ∧ tail = t0.fresh + m - 1)

/-- One round of the twig loop. -/
theorem Chain.round {t0 t : Tree V} {ch : Nat → Nat} {m : Nat} (C : Chain t0 ch m t) {head : Option Nat} {tail : Nat}
    (E : Ends t0 m head tail) (ik : Nat) (hik : ch m = ik) :
    ∃ t', (match head with
        | some h =>
          ({ (allocLeaf t true false (twigBody ik)).1 with
             body := upd (allocLeaf t true false (twigBody ik)).1.body tail
               { (allocLeaf t true false (twigBody ik)).1.body tail with
                 klx := upd ((allocLeaf t true false (twigBody ik)).1.body tail).klx 0 layerKeylenx,
                 cell := upd ((allocLeaf t true false (twigBody ik)).1.body tail).cell 0 (.layer t.fresh) } }, some h)
        | none => ((allocLeaf t true false (twigBody ik)).1, some t.fresh)) = (t', some t0.fresh) ∧
      Chain t0 ch (m + 1) t' ∧ Ends t0 (m + 1) (some t0.fresh) t.fresh := by
  have hf := C.fresh
  rcases E with ⟨e1, e2⟩ | ⟨e1, e2, e3⟩
  · subst e1; subst e2
    have hf0 : t.fresh = t0.fresh := by omega
    refine ⟨_, by rw [hf0], ?_, Or.inr ⟨by omega, rfl, by omega⟩⟩
    refine ⟨C.added.alloc _, by show t.fresh + 1 = _; omega, fun j hj => by omega, fun j hj => ?_⟩
    have : j = 0 := by omega
    subst this
    show upd t.body t.fresh (twigBody ik) (t0.fresh + 0) = _
    rw [show t0.fresh + 0 = t.fresh by omega, updS, hik]
  · subst e2
    have hft : tail ≠ t.fresh := by omega
    have hbt : (allocLeaf t true false (twigBody ik)).1.body tail = twigBody (ch (m - 1)) := by
      show upd t.body t.fresh (twigBody ik) tail = _
      rw [updN hft, e3]
      have := C.last (m - 1) (by omega)
      rwa [show t0.fresh + (m - 1) = t0.fresh + m - 1 by omega] at this
    refine ⟨_, rfl, ?_, Or.inr ⟨by omega, rfl, by omega⟩⟩
    refine ⟨(C.added.alloc _).setBody (by omega) _, by show t.fresh + 1 = _; omega, fun j hj => ?_, fun j hj => ?_⟩
    · show upd _ tail _ (t0.fresh + j) = _
      by_cases e : j = m - 1
      · rw [show t0.fresh + j = tail by omega, updS, hbt, e]
        show linkBody (ch (m - 1)) t.fresh = linkBody (ch (m - 1)) (tail + 1)
        rw [show t.fresh = tail + 1 by omega]
      · rw [updN (by omega)]
        show upd t.body t.fresh (twigBody ik) (t0.fresh + j) = _
        rw [updN (by omega)]
        exact C.body j (by omega)
    · show upd _ tail _ (t0.fresh + j) = _
      rw [updN (by omega)]
      show upd t.body t.fresh (twigBody ik) (t0.fresh + j) = _
      rw [show t0.fresh + j = t.fresh by omega, updS, ← hik, show j = m by omega]

theorem twig_ok {t0 : Tree V} {se d : Bytes} {n0 : Nat} : ∀ f m (t : Tree V) head tail ek nk cmp,
    Chain t0 (fun j => chunk (se.drop (8 * j))) m t → Ends t0 m head tail → ek.Sees se m → nk.Sees d (n0 + m) →
    cmp = ek.compare nk.ikey nk.currentLen → se.take (8 * m) = (d.drop (8 * n0)).take (8 * m) →
    8 * m < se.length → 8 * m < (d.drop (8 * n0)).length → d.length / 8 < n0 + m + f →
    ∃ t' m' head' tail' ek' nk', twigLoop f t head tail ek nk cmp =
        .ok (t', head', tail', ek', nk', ek'.compare nk'.ikey nk'.currentLen) ∧
      Chain t0 (fun j => chunk (se.drop (8 * j))) m' t' ∧ Ends t0 m' head' tail' ∧ ek'.Sees se m' ∧ nk'.Sees d (n0 + m') ∧
      se.take (8 * m') = (d.drop (8 * n0)).take (8 * m') ∧ 8 * m' < se.length ∧ 8 * m' < (d.drop (8 * n0)).length ∧
      ¬ (ek'.compare nk'.ikey nk'.currentLen = .eq ∧ ek'.hasSuffix ∧ nk'.hasSuffix) := by
  intro f
  induction f with
  | zero =>
    intro m t head tail ek nk cmp _ _ _ _ _ _ _ h1 h2
    simp only [List.length_drop] at h1
    omega
  | succ f ih =>
    intro m t head tail ek nk cmp C E he hn hc hp l1 l2 hf
    by_cases hcond : cmp = .eq ∧ ek.hasSuffix ∧ nk.hasSuffix
    · obtain ⟨t', r1, r2, r3⟩ := C.round E ek.ikey (by rw [he.ikey_eq])
      have hs1 : 8 < (se.drop (8 * m)).length := by
        have := he.hasSuffix; rw [hcond.2.1] at this; exact of_decide_eq_true this.symm
      have hs2 : 8 < (d.drop (8 * (n0 + m))).length := by
        have := hn.hasSuffix; rw [hcond.2.2] at this; exact of_decide_eq_true this.symm
      have hch : chunk (se.drop (8 * m)) = chunk (d.drop (8 * (n0 + m))) := by
        have h1 := hcond.1
        rw [hc, hn.ikey_eq, hn.currentLen, he.compare _ _ (Or.inl rfl)] at h1
        have h2 : Ord.compare (chunk (se.drop (8 * m))) (chunk (d.drop (8 * (n0 + m)))) = .eq := by
          cases hq : Ord.compare (chunk (se.drop (8 * m))) (chunk (d.drop (8 * (n0 + m)))) <;> rw [hq] at h1 <;> simp at h1 ⊢
        exact Nat.compare_eq_eq.1 h2
      have htk := Verif.Spec.take_eq_of_chunk_eq _ _ (by omega) (by omega) hch
      simp only [List.length_drop] at hs1 hs2
      have hp' : se.take (8 * (m + 1)) = (d.drop (8 * n0)).take (8 * (m + 1)) := by
        rw [show 8 * (m + 1) = 8 * m + 8 by omega, List.take_add, List.take_add, hp, htk, List.drop_drop]
        congr 3; omega
      obtain ⟨t2, m2, hd2, tl2, ek2, nk2, q1, q2⟩ := ih (m + 1) t' (some t0.fresh) t.fresh ek.shift nk.shift
        (ek.shift.compare nk.shift.ikey nk.shift.currentLen) r2 r3 he.shift hn.shift rfl hp' (by omega)
        (by simp only [List.length_drop]; omega) (by omega)
      refine ⟨t2, m2, hd2, tl2, ek2, nk2, ?_, q2⟩
      rw [twigLoop, if_pos hcond]
      rw [← q1]
      cases head with
      | none => exact congrArg (fun p : Tree V × Option Nat => twigLoop f p.1 p.2 t.fresh ek.shift nk.shift
          (ek.shift.compare nk.shift.ikey nk.shift.currentLen)) r1
      | some h => exact congrArg (fun p : Tree V × Option Nat => twigLoop f p.1 p.2 t.fresh ek.shift nk.shift
          (ek.shift.compare nk.shift.ikey nk.shift.currentLen)) r1
    · refine ⟨t, m, head, tail, ek, nk, ?_, C, E, he, hn, hp, l1, l2, by rw [← hc]; exact hcond⟩
      rw [twigLoop, if_neg hcond, hc]

/-! ## Bodies of the new leaves -/

theorem linkBody_n (ik q : Nat) : (linkBody ik q : Leaf V).n = 1 := size_makeSorted 1 (by omega)

theorem linkBody_ent (ik q : Nat) : (linkBody ik q : Leaf V).ent 0 = ⟨ik, 128, .layer q, none⟩ := by
  have : get 5 (linkBody ik q : Leaf V).perm 0 = 0 := get_makeSorted 1 (by omega) 0 (by omega)
  unfold Leaf.ent
  rw [this]
  simp [entAt, linkBody, twigBody, Leaf.suf, upd, layerKeylenx, ksufKeylenx]

theorem linkBody_ok (ik q : Nat) : BodyOK (linkBody ik q : Leaf V) 0 none := by
  have hn := linkBody_n (V := V) ik q
  refine ⟨permOK_makeSorted 1 (by omega), fun j j' h1 h2 => by omega, fun j j' h1 h2 => by omega, fun j h => by omega,
    fun j h => by simp, fun j hj => ?_⟩
  have : j = 0 := by omega
  subst this
  exact .layer (by rw [linkBody_ent]) q (by rw [linkBody_ent])

/-- A leaf with two entries made by `finalLeaf`. -/
theorem pairBody (e0 e1 : Ent V) (b : Leaf V) (hp : b.perm = makeSorted24 2) (h0 : entAt b 0 = e0) (h1 : entAt b 1 = e1)
    (ok0 : EntOK e0) (ok1 : EntOK e1) (hle : e0.ikey ≤ e1.ikey) (hd : e0.ikey = e1.ikey → cls e0.klx ≠ cls e1.klx) :
    b.n = 2 ∧ b.ent 0 = e0 ∧ b.ent 1 = e1 ∧ BodyOK b 0 none := by
  have hn : b.n = 2 := by unfold Leaf.n; rw [hp]; exact size_makeSorted 2 (by omega)
  have g0 : b.ent 0 = e0 := by
    unfold Leaf.ent; rw [hp, get_makeSorted 2 (by omega) 0 (by omega)]; exact h0
  have g1 : b.ent 1 = e1 := by
    unfold Leaf.ent; rw [hp, get_makeSorted 2 (by omega) 1 (by omega)]; exact h1
  refine ⟨hn, g0, g1, by rw [hp]; exact permOK_makeSorted 2 (by omega), ?_, ?_, fun j h => by omega, fun j h => by simp, ?_⟩
  · intro j j' a1 a2
    have : j = 0 := by omega
    have : j' = 1 := by omega
    subst_vars; rw [g0, g1]; exact hle
  · intro j j' a1 a2
    have : j = 0 := by omega
    have : j' = 1 := by omega
    subst_vars; rw [g0, g1]; exact hd
  · intro j hj
    by_cases e : j = 0
    · subst e; rw [g0]; exact ok0
    · have : j = 1 := by omega
      subst this; rw [g1]; exact ok1

theorem newEnt_ok_at {k : Key} {d : Bytes} {n : Nat} (h : k.Sees d n) (hd : d.length ≤ 256) (v : V) : EntOK (newEnt k v) := by
  apply newEnt_ok
  · rw [h.suffix]; simp only [List.length_drop]; omega
  · intro hs
    rw [h.suffix]
    have h1 := h.hasSuffix
    rw [hs] at h1
    have := of_decide_eq_true h1.symm
    intro e
    have := congrArg List.length e
    simp only [List.length_drop, List.length_nil] at *
    omega

theorem kcls_at {k : Key} {d : Bytes} {n : Nat} (h : k.Sees d n) : kcls k = lenClass (d.drop (8 * n)) := by
  unfold kcls lenClass
  rw [h.hasSuffix, h.currentLen]
  by_cases c : 8 < (d.drop (8 * n)).length
  · simp only [decide_eq_true c, if_true]; omega
  · simp only [decide_eq_false c, Bool.false_eq_true, if_false]; omega

/-- The last leaf of the chain holds both keys. -/
theorem finalLeaf_ok {ek nk : Key} {se d : Bytes} {m n : Nat} (he : ek.Sees se m) (hn : nk.Sees d n) (ev v : V)
    (l1 : se.length ≤ 256) (l2 : d.length ≤ 256) (hne : se.drop (8 * m) ≠ d.drop (8 * n))
    (hx : ¬ (ek.compare nk.ikey nk.currentLen = .eq ∧ ek.hasSuffix ∧ nk.hasSuffix)) :
    ∃ e0 e1, ((e0 = newEnt ek ev ∧ e1 = newEnt nk v) ∨ (e0 = newEnt nk v ∧ e1 = newEnt ek ev)) ∧
      (finalLeaf ek ev nk v (ek.compare nk.ikey nk.currentLen)).n = 2 ∧
      (finalLeaf ek ev nk v (ek.compare nk.ikey nk.currentLen)).ent 0 = e0 ∧
      (finalLeaf ek ev nk v (ek.compare nk.ikey nk.currentLen)).ent 1 = e1 ∧
      BodyOK (finalLeaf ek ev nk v (ek.compare nk.ikey nk.currentLen)) 0 none := by
  have ok1 := newEnt_ok_at he l1 ev
  have ok2 := newEnt_ok_at hn l2 v
  have hcmp : ek.compare nk.ikey nk.currentLen = (Ord.compare (chunk (se.drop (8 * m))) (chunk (d.drop (8 * n)))).then
        (if 8 < (se.drop (8 * m)).length ∧ 8 < (d.drop (8 * n)).length then .eq
         else Ord.compare (se.drop (8 * m)).length (d.drop (8 * n)).length) := by
    rw [hn.ikey_eq, hn.currentLen]; exact he.compare _ _ (Or.inl rfl)
  have hcls : chunk (se.drop (8 * m)) = chunk (d.drop (8 * n)) → kcls ek ≠ kcls nk := by
    intro hc hk
    rw [kcls_at he, kcls_at hn] at hk
    unfold lenClass at hk
    by_cases c : (se.drop (8 * m)).length ≤ 8
    · exact hne (Verif.Spec.eq_of_chunk_eq_short _ _ c (by omega) hc)
    · apply hx
      refine ⟨?_, ?_, ?_⟩
      · rw [hcmp, hc, if_pos (by omega)]; simp
      · rw [he.hasSuffix]; exact decide_eq_true (by omega)
      · rw [hn.hasSuffix]; exact decide_eq_true (by omega)
  have i1 : (newEnt ek ev).ikey = chunk (se.drop (8 * m)) := he.ikey_eq
  have i2 : (newEnt nk v).ikey = chunk (d.drop (8 * n)) := hn.ikey_eq
  have a01 : entAt (assignFromKey (assignFromKey (emptyLeaf : Leaf V) 0 ek ev) 1 nk v) 0 = newEnt ek ev := by
    rw [assignFromKey_other _ _ _ _ _ (by omega), assignFromKey_entAt]
  have a10 : entAt (assignFromKey (assignFromKey (emptyLeaf : Leaf V) 0 nk v) 1 ek ev) 0 = newEnt nk v := by
    rw [assignFromKey_other _ _ _ _ _ (by omega), assignFromKey_entAt]
  cases hq : ek.compare nk.ikey nk.currentLen with
  | lt =>
    refine ⟨_, _, Or.inl ⟨rfl, rfl⟩, ?_⟩
    have := pairBody (newEnt ek ev) (newEnt nk v) (finalLeaf ek ev nk v .lt) rfl a01 (assignFromKey_entAt _ _ _ _) ok1 ok2
      (by
        rw [i1, i2]
        rw [hcmp] at hq
        cases hh : Ord.compare (chunk (se.drop (8 * m))) (chunk (d.drop (8 * n))) with
        | lt => exact Nat.le_of_lt (Nat.compare_eq_lt.1 hh)
        | eq => exact Nat.le_of_eq (Nat.compare_eq_eq.1 hh)
        | gt => rw [hh] at hq; simp at hq)
      (by rw [newEnt_cls, newEnt_cls, i1, i2]; exact hcls)
    exact this
  | gt =>
    refine ⟨_, _, Or.inr ⟨rfl, rfl⟩, ?_⟩
    have := pairBody (newEnt nk v) (newEnt ek ev) (finalLeaf ek ev nk v .gt) rfl a10 (assignFromKey_entAt _ _ _ _) ok2 ok1
      (by
        rw [i1, i2]
        rw [hcmp] at hq
        cases hh : Ord.compare (chunk (se.drop (8 * m))) (chunk (d.drop (8 * n))) with
        | gt => exact Nat.le_of_lt (Nat.compare_eq_gt.1 hh)
        | eq => exact Nat.le_of_eq (Nat.compare_eq_eq.1 hh).symm
        | lt => rw [hh] at hq; simp at hq)
      (by rw [newEnt_cls, newEnt_cls, i1, i2]; exact fun h h' => hcls h.symm h'.symm)
    exact this
  | eq =>
    exfalso
    rw [hcmp] at hq
    have hc : chunk (se.drop (8 * m)) = chunk (d.drop (8 * n)) := by
      cases hh : Ord.compare (chunk (se.drop (8 * m))) (chunk (d.drop (8 * n))) with
      | lt => rw [hh] at hq; simp at hq
      | gt => rw [hh] at hq; simp at hq
      | eq => exact Nat.compare_eq_eq.1 hh
    apply hcls hc
    rw [kcls_at he, kcls_at hn]
    unfold lenClass
    rw [hc] at hq
    by_cases c : 8 < (se.drop (8 * m)).length ∧ 8 < (d.drop (8 * n)).length
    · omega
    · rw [if_neg c] at hq
      have : Ord.compare (se.drop (8 * m)).length (d.drop (8 * n)).length = .eq := by simpa using hq
      rw [Nat.compare_eq_eq.1 this]

/-- The tree after the sublayer for the two keys was built, before it is linked into the leaf: `m` leaves with one
pointer each, then the leaf with both keys. -/
structure LayerOut (t : Tree V) (se d : Bytes) (n0 : Nat) (ev v : V) (m : Nat) (t' : Tree V) : Prop where
  added : Added t t'
  fresh : t'.fresh = t.fresh + m + 1
  body : ∀ j, j < m → t'.body (t.fresh + j) = linkBody (chunk (se.drop (8 * j))) (t.fresh + j + 1)
  pre : se.take (8 * m) = (d.drop (8 * n0)).take (8 * m)
  l1 : 8 * m < se.length
  l2 : 8 * m < (d.drop (8 * n0)).length
  last : ∃ ek nk e0 e1, ek.Sees se m ∧ nk.Sees d (n0 + m) ∧
    ((e0 = newEnt ek ev ∧ e1 = newEnt nk v) ∨ (e0 = newEnt nk v ∧ e1 = newEnt ek ev)) ∧
    (t'.body (t.fresh + m)).n = 2 ∧ (t'.body (t.fresh + m)).ent 0 = e0 ∧ (t'.body (t.fresh + m)).ent 1 = e1 ∧
    BodyOK (t'.body (t.fresh + m)) 0 none

theorem createLayer_out (t : Tree V) {b : Leaf V} {slot : Nat} {se : Bytes} {ev : V} (hks : b.klx slot = 64)
    (hsuf : b.suf slot = some se) (hcell : b.cell slot = .val ev) (hse : se ≠ []) (hsl : se.length ≤ 256) {nk : Key}
    {d : Bytes} {n : Nat} (hn : nk.Sees d n) (hd : d.length ≤ 256) (hs : nk.hasSuffix = true)
    (hne : se ≠ d.drop (8 * (n + 1))) (v : V) :
    ∃ t' m, createLayer t b slot nk v = .ok (t', t.fresh) ∧ LayerOut t se d (n + 1) ev v m t' := by
  have hnew : Key.fromSuffix? se = some (Key.mk' se) := by simp [Key.fromSuffix?, Key.new?, maxKeyLength, hsl]
  have hs2 : 8 < (d.drop (8 * n)).length := by
    have := hn.hasSuffix; rw [hs] at this; exact of_decide_eq_true this.symm
  simp only [List.length_drop] at hs2
  have hse0 : 0 < se.length := List.length_pos_iff.2 hse
  have hC : Chain t (fun j => chunk (se.drop (8 * j))) 0 t := ⟨Added.refl t, rfl, fun j h => by omega, fun j h => by omega⟩
  obtain ⟨t1, m, hd1, tl1, ek, nk1, q1, q2, q3, q4, q5, q6, q7, q8, q9⟩ :=
    twig_ok (t0 := t) (se := se) (d := d) (n0 := n + 1) (nk.shift.data.length + 1) 0 t none 0 (Key.mk' se) nk.shift
      ((Key.mk' se).compare nk.shift.ikey nk.shift.currentLen) hC (Or.inl ⟨rfl, rfl⟩) (Key.mk'_sees se) hn.shift rfl (by simp)
      (by omega) (by simp only [List.length_drop]; omega) (by have := hn.shift.len_le; omega)
  have hne' : se.drop (8 * m) ≠ d.drop (8 * (n + 1 + m)) := by
    intro e
    apply hne
    rw [← List.take_append_drop (8 * m) se, ← List.take_append_drop (8 * m) (d.drop (8 * (n + 1))), q6, e, List.drop_drop]
    congr 2; omega
  obtain ⟨e0, e1, f1, f2, f3, f4, f5⟩ := finalLeaf_ok q4 q5 ev v hsl hd hne' q9
  have hnl : ¬ layerKeylenx ≤ b.klx slot := by rw [hks]; simp [layerKeylenx]
  have hf1 := q2.fresh
  rcases q3 with ⟨g1, g2⟩ | ⟨g1, g2, g3⟩
  · subst g1; subst g2
    have hf0 : t1.fresh = t.fresh := by omega
    refine ⟨_, 0, ?_, q2.added.alloc (finalLeaf ek ev nk1 v (ek.compare nk1.ikey nk1.currentLen)), ?_, fun j h => by omega, q6, q7, q8, ek, nk1, e0, e1, q4, q5, f1, ?_⟩
    · simp only [createLayer, hsuf, Option.getD_some, hnew, if_neg hnl, hcell, hs, if_true, q1, bind, Except.bind]
      show Except.ok ((allocLeaf t1 true false _).1, t1.fresh) = _
      rw [hf0]
    · show t1.fresh + 1 = _; omega
    · have : (allocLeaf t1 true false (finalLeaf ek ev nk1 v (ek.compare nk1.ikey nk1.currentLen))).1.body (t.fresh + 0) =
          finalLeaf ek ev nk1 v (ek.compare nk1.ikey nk1.currentLen) := by
        show upd t1.body t1.fresh _ (t.fresh + 0) = _
        rw [show t.fresh + 0 = t1.fresh by omega]; exact updS
      rw [this]
      exact ⟨f2, f3, f4, f5⟩
  · subst g2
    have hft : tl1 ≠ t1.fresh := by omega
    generalize hF : finalLeaf ek ev nk1 v (ek.compare nk1.ikey nk1.currentLen) = F at *
    have hbt : (allocLeaf t1 true false F).1.body tl1 = twigBody (chunk (se.drop (8 * (m - 1)))) := by
      show upd t1.body t1.fresh F tl1 = _
      rw [updN hft, g3]
      have := q2.last (m - 1) (by omega)
      rwa [show t.fresh + (m - 1) = t.fresh + m - 1 by omega] at this
    refine ⟨_, m, ?_, (q2.added.alloc F).setBody (x := tl1) (by omega) (linkBody (chunk (se.drop (8 * (m - 1)))) t1.fresh), ?_, ?_, q6, q7, q8, ek, nk1, e0, e1, q4, q5, f1, ?_⟩
    · simp only [createLayer, hsuf, Option.getD_some, hnew, if_neg hnl, hcell, hs, if_true, q1, bind, Except.bind, hF]
      simp only [hbt]
      rfl
    · show t1.fresh + 1 = _; omega
    · intro j hj
      show upd _ tl1 _ (t.fresh + j) = _
      by_cases e : j = m - 1
      · rw [show t.fresh + j = tl1 by omega, updS, e, show t1.fresh = tl1 + 1 by omega]
      · rw [updN (by omega)]
        show upd t1.body t1.fresh F (t.fresh + j) = _
        rw [updN (by omega)]
        exact q2.body j (by omega)
    · have : upd (allocLeaf t1 true false F).1.body tl1 (linkBody (chunk (se.drop (8 * (m - 1)))) t1.fresh) (t.fresh + m) = F := by
        rw [updN (by omega)]
        show upd t1.body t1.fresh F (t.fresh + m) = _
        rw [show t.fresh + m = t1.fresh by omega]; exact updS
      simp only [this]
      exact ⟨f2, f3, f4, f5⟩

end Verif.Tree
