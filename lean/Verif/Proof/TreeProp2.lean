import Verif.Proof.TreeProp
set_option linter.unusedSimpArgs false
set_option linter.unusedVariables false
/-!
# The propagation loop
-/
namespace Verif.Tree
open Verif.Spec (Bytes chunk lenClass)
open Verif.Internode (Arr upd insertKeyAndChild splitInto vkey vchild)
open Verif.Perm (size get back backAtOffset insertFromBack swapFreeSlots setSize makeSorted24 params24)
variable {V : Type}
variable {t : Tree V} {G : Ghost} {l r s : Nat} {il ir : Info}

theorem findChild_spec (a : Arr (Option Nat)) (c : Nat) : ∀ n i j, i ≤ j → j < i + n → a.child j = some c →
    ∃ k, findChild a c i n = some k ∧ i ≤ k ∧ k < i + n ∧ a.child k = some c := by
  intro n
  induction n with
  | zero => intro i j h1 h2; omega
  | succ n ih =>
    intro i j h1 h2 h3
    simp only [findChild]
    by_cases e : a.child i = some c
    · rw [if_pos e]; exact ⟨i, rfl, by omega, by omega, e⟩
    · rw [if_neg e]
      have : i ≠ j := by intro e2; subst e2; exact e h3
      obtain ⟨k, k1, k2, k3, k4⟩ := ih (i + 1) j (by omega) (by omega) h3
      exact ⟨k, k1, by omega, by omega, k4⟩

theorem setParents_ok (t : Tree V) (a : Arr (Option Nat)) (sib : Nat) (b : Bool) : ∀ n,
    (∀ j c, j < n → a.child j = some c → t.kind c = some (if b then Kind.leaf else Kind.inode)) →
    ∃ par, setParents t a sib b n = .ok { t with parent := par } ∧
      (∀ j c, j < n → a.child j = some c → par c = some sib) ∧
      (∀ c, (∀ j, j < n → a.child j ≠ some c) → par c = t.parent c) := by
  intro n
  induction n with
  | zero => intro _; exact ⟨t.parent, rfl, fun j c h => by omega, fun c _ => rfl⟩
  | succ n ih =>
    intro hk
    obtain ⟨par, h1, h2, h3⟩ := ih (fun j c hj => hk j c (by omega))
    cases hc : a.child n with
    | none =>
      refine ⟨par, ?_, ?_, ?_⟩
      · simp [setParents, h1, bind, Except.bind, hc]
      · intro j c hj hjc
        by_cases e : j = n
        · subst e; rw [hc] at hjc; cases hjc
        · exact h2 j c (by omega) hjc
      · intro c h; exact h3 c (fun j hj => h j (by omega))
    | some c0 =>
      refine ⟨upd par c0 (some sib), ?_, ?_, ?_⟩
      · have := hk n c0 (by omega) hc
        simp [setParents, h1, bind, Except.bind, hc, setParent, this]
      · intro j c hj hjc
        by_cases e : c = c0
        · subst e; exact updS
        · rw [updN e]
          have : j ≠ n := by intro e2; subst e2; rw [hc] at hjc; cases hjc; exact e rfl
          exact h2 j c (by omega) hjc
      · intro c h
        have : c ≠ c0 := by intro e; subst e; exact h n (by omega) hc
        rw [updN this]; exact h3 c (fun j hj => h j (by omega))

/-- Is `l` the root of the whole tree or of a layer: the flags agree with the state. -/
def FlagsOK (t : Tree V) (l : Nat) (isMain isLayer : Bool) : Prop :=
  t.parent l = none → (isLayer = true ∧ t.root ≠ l) ∨ (isLayer = false ∧ isMain = true ∧ t.root = l)

theorem propagate_top (h : Pend t G l r s il ir) (hp : t.parent l = none) (isMain isLayer atLeaf : Bool)
    (hk : t.kind l = some (if atLeaf then Kind.leaf else Kind.inode)) (hf : FlagsOK t l isMain isLayer) (f : Nat) :
    ∃ t' G', propagate (f + 1) t l r s isMain isLayer atLeaf = .ok t' ∧ Inv0 t' G' ∧ Frame t G t' G' ∧
      (RU t (view G l r) → RU t' G') ∧ t'.fresh = t.fresh + 1 ∧ hgt t' t.fresh = hgt t l + 1 ∧
      (∀ x, x ≠ t.fresh → hgt t' x = hgt t x) := by
  have I := h.inv
  have hl := I.lt h.gl
  have hr := I.lt h.gr
  have hne := h.ne
  have hh : (if atLeaf = true then 0 else t.height l + 1) = Verif.Tree.hgt t l := by
    cases atLeaf with
    | true => rw [hgt_leaf (by simpa using hk)]; simp
    | false => rw [hgt_inode (by simpa using hk)]; simp
  have kr : t.kind r = some (if atLeaf then Kind.leaf else Kind.inode) := by rw [h.kind]; exact hk
  have hgtb : ∀ (t' : Tree V), t'.kind = upd t.kind t.fresh (some .inode) →
      t'.height = upd t.height t.fresh (Verif.Tree.hgt t l) →
      Verif.Tree.hgt t' t.fresh = Verif.Tree.hgt t l + 1 ∧ (∀ x, x ≠ t.fresh → Verif.Tree.hgt t' x = Verif.Tree.hgt t x) := by
    intro t' h1 h2
    constructor
    · rw [hgt_inode (t := t') (by rw [h1]; exact updS), h2, updS]
    · intro x e; simp only [Verif.Tree.hgt, h1, h2, updN e]
  have lf' : l ≠ t.fresh := by omega
  have rf' : r ≠ t.fresh := by omega
  rcases hf hp with ⟨a1, a2⟩ | ⟨a1, a2, a3⟩
  · have K := newRoot_inv h hp
      (upd (upd (upd (upd (upd t.rootf t.fresh true) l false) r false) r false) l false)
      (upd (upd (upd t.locked t.fresh false) r false) l false) t.root
      (fun y h1 h2 h3 => by rw [updN h1, updN h2, updN h2, updN h1, updN h3])
      (by rw [updN lf'.symm, updN rf'.symm, updN rf'.symm, updN lf'.symm, updS])
      (fun y h1 h2 h3 => by rw [updN h1, updN h2, updN h3])
      updS (by rw [updN hne.symm, updS]) (by rw [updN lf'.symm, updN rf'.symm, updS]) (Or.inl ⟨rfl, a2⟩)
    refine ⟨_, _, ?_, K.1, K.2.1, K.2.2, rfl, hgtb _ rfl rfl⟩
    have k1 : upd t.kind t.fresh (some Kind.inode) l = some (if atLeaf then Kind.leaf else Kind.inode) := by
      rw [updN lf']; exact hk
    have k2 : upd t.kind t.fresh (some Kind.inode) r = some (if atLeaf then Kind.leaf else Kind.inode) := by
      rw [updN rf']; exact kr
    rw [propagate]
    simp only [getParent, hk, if_true, bind, Except.bind, hp, a1, promoteLayerRoot, allocInode, setParent, k1, k2,
      unlockSplit, hh]
  · have K := newRoot_inv h hp
      (upd (upd (upd (upd t.rootf t.fresh true) l false) r false) l false)
      (upd (upd (upd t.locked t.fresh false) r false) l false) t.fresh
      (fun y h1 h2 h3 => by rw [updN h1, updN h2, updN h1, updN h3])
      (by rw [updN lf'.symm, updN rf'.symm, updN lf'.symm, updS])
      (fun y h1 h2 h3 => by rw [updN h1, updN h2, updN h3])
      updS (by rw [updN hne.symm, updS]) (by rw [updN lf'.symm, updN rf'.symm, updS]) (Or.inr ⟨rfl, a3⟩)
    refine ⟨_, _, ?_, K.1, K.2.1, K.2.2, rfl, hgtb _ rfl rfl⟩
    have k1 : upd t.kind t.fresh (some Kind.inode) l = some (if atLeaf then Kind.leaf else Kind.inode) := by
      rw [updN lf']; exact hk
    have k2 : upd t.kind t.fresh (some Kind.inode) r = some (if atLeaf then Kind.leaf else Kind.inode) := by
      rw [updN rf']; exact kr
    rw [propagate]
    have hnf : ¬ (false = true) := by simp
    simp only [getParent, hk, if_true, bind, Except.bind, hp, a1, a2, hnf, if_false, createMainRoot, allocInode, setParent, k1, k2,
      unlockSplit, hh, a3, ne_eq, not_true_eq_false]
    rfl

theorem propagate_ok (B : Nat) : ∀ f (t : Tree V) (G : Ghost) (l r s : Nat) (il ir : Info) (isMain isLayer atLeaf : Bool),
    Pend t G l r s il ir → t.kind l = some (if atLeaf then Kind.leaf else Kind.inode) → FlagsOK t l isMain isLayer →
    (∀ x, x < t.fresh → hgt t x ≤ B) → B < hgt t l + f →
    ∃ t' G', propagate f t l r s isMain isLayer atLeaf = .ok t' ∧ Inv0 t' G' ∧ Frame t G t' G' ∧
      (RU t (view G l r) → RU t' G') ∧ (∀ x, x < t'.fresh → hgt t' x ≤ B + 1) := by
  intro f
  induction f with
  | zero =>
    intro t G l r s il ir _ _ _ h _ _ hB hf
    have := hB l (h.inv.lt h.gl)
    omega
  | succ f ih =>
    intro t G l r s il ir isMain isLayer atLeaf h hk hfl hB hf
    have I := h.inv
    have hll := I.lt h.gl
    have hrl := I.lt h.gr
    have hne := h.ne
    have kr : t.kind r = some (if atLeaf then Kind.leaf else Kind.inode) := by rw [h.kind]; exact hk
    cases hp : t.parent l with
    | none =>
      obtain ⟨t', G', h1, h2, h3, h4, h5, h6, h7⟩ := propagate_top h hp isMain isLayer atLeaf hk hfl f
      refine ⟨t', G', h1, h2, h3, h4, fun x hx => ?_⟩
      by_cases e : x = t.fresh
      · subst e; rw [h6]; have := hB l hll; omega
      · rw [h7 x e]; have := hB x (by omega); omega
    | some p =>
      obtain ⟨ip, hip, hgp, hkp, hpl, hpr, hin, hhp, j, hj, hcj⟩ := h.parent_ne hp
      have hpf := I.lt hgp
      have hlp : t.locked p = false := by
        have := (I.locks p hpf).1
        cases hq : t.locked p with
        | false => rfl
        | true => rcases this hq with e | e
                  · exact absurd e hpl
                  · exact absurd e hpr
      obtain ⟨idx, f1, f2, f3, f4⟩ := findChild_spec (t.arr p) l ((t.arr p).nkeys + 1) 0 j (by omega) (by omega) hcj
      have hidx : idx ≤ (t.arr p).nkeys := by omega
      have hnf : ¬ (t.kind p ≠ some Kind.inode) := by simp [hkp]
      by_cases hroom : (t.arr p).nkeys < 15
      · have K := insertParent_inv h hp hidx f4 hroom
          (upd (upd t.rootf r false) l false)
          (upd (upd (upd (upd t.locked p true) r false) p false) l false)
          (fun y h1 h2 => by rw [updN h1, updN h2])
          (fun y h1 h2 => by
            rw [updN h1]
            by_cases e : y = p
            · subst e; rw [updS, hlp]
            · rw [updN e, updN h2, updN e])
          updS (by rw [updN hne.symm, updN hpr.symm, updS])
        refine ⟨_, _, ?_, K.1, K.2.1, K.2.2, fun x hx => ?_⟩
        · rw [propagate]
          simp only [getParent, hk, if_true, bind, Except.bind, hp, hnf, if_false, lock, hlp, f1, inodeWidth, hroom,
            setParent, kr, unlockSplit, unlock, Bool.false_eq_true, if_false]
        · exact Nat.le_succ_of_le (hB x hx)
      · have hfull : (t.arr p).nkeys = 15 := by have := hin.n15; omega
        have S := Verif.Internode.split_spec 15 (t.arr p) emptyArr idx s (some r) (by omega) hfull (by omega)
        generalize hres : splitInto 15 (t.arr p) emptyArr idx s (some r) = res at S
        obtain ⟨la, ra, popup, wl⟩ := res
        simp only [show (15 + 1) / 2 = 8 from rfl, show 15 - 8 = 7 from rfl, show 8 + 1 = 9 from rfl] at S
        obtain ⟨s1, s2, s3, s4, s5, s6, s7, s8⟩ := S
        -- children of the full node before the split
        have hold : ∀ j c, (t.arr p).child j = some c → j ≤ 15 → c ≠ r ∧ c < t.fresh ∧ Verif.Tree.hgt t c + 1 = Verif.Tree.hgt t p := by
          intro j c hc hj
          obtain ⟨c', ic, hch⟩ := hin.child j (by omega)
          have : c' = c := by have := hch.eq; rw [hc] at this; exact (Option.some.inj this).symm
          subst this
          refine ⟨?_, I.sub _ _ hch.dom, hch.hgt⟩
          intro e; subst e; have := hch.dom; rw [view_r] at this; cases this
        have hvr : ∀ j, j ≤ 16 → (vchild (t.arr p) idx (some r) j = some r ↔ j = idx + 1) := by
          intro j hj
          unfold vchild
          by_cases c1 : j ≤ idx
          · rw [if_pos c1]
            exact ⟨fun e => absurd rfl (hold _ _ e (by omega)).1, fun e => by omega⟩
          · rw [if_neg c1]
            by_cases c2 : j = idx + 1
            · rw [if_pos c2]; simp [c2]
            · rw [if_neg c2]
              exact ⟨fun e => absurd rfl (hold _ _ e (by omega)).1, fun e => absurd e c2⟩
        have hvc : ∀ j c, j ≤ 16 → vchild (t.arr p) idx (some r) j = some c →
            c < t.fresh ∧ Verif.Tree.hgt t c + 1 = Verif.Tree.hgt t p := by
          intro j c hj hc
          unfold vchild at hc
          by_cases c1 : j ≤ idx
          · rw [if_pos c1] at hc; exact (hold _ _ hc (by omega)).2
          · rw [if_neg c1] at hc
            by_cases c2 : j = idx + 1
            · rw [if_pos c2] at hc; cases hc; exact ⟨hrl, by rw [h.hgt]; exact hhp⟩
            · rw [if_neg c2] at hc; exact (hold _ _ hc (by omega)).2
        have hkindc : ∀ j c, j < 8 → ra.child j = some c →
            upd t.kind t.fresh (some Kind.inode) c = some (if t.height p == 0 then Kind.leaf else Kind.inode) := by
          intro j c hj hc
          rw [s7 j (by omega)] at hc
          obtain ⟨g1, g2⟩ := hvc _ c (by omega) hc
          rw [updN (by omega : c ≠ t.fresh)]
          rw [hgt_inode hkp] at g2
          obtain ⟨ic, hic⟩ := (I.dom c).2 g1
          rcases I.kind_cases hic with hkc | hkc
          · rw [hgt_leaf hkc] at g2
            have : t.height p = 0 := by omega
            simp [this, hkc]
          · rw [hgt_inode hkc] at g2
            have : t.height p ≠ 0 := by omega
            simp [this, hkc]
        let T2 : Tree V := { t with
          kind := upd t.kind t.fresh (some .inode), rootf := upd t.rootf t.fresh false,
          locked := upd (upd t.locked p true) t.fresh true,
          parent := upd t.parent t.fresh none, height := upd t.height t.fresh (t.height p),
          arr := upd (upd (upd t.arr t.fresh emptyArr) p la) t.fresh ra, fresh := t.fresh + 1 }
        have hpne : p ≠ t.fresh := by omega
        obtain ⟨par, q1, q2, q3⟩ := setParents_ok T2 ra t.fresh (t.height p == 0) 8 hkindc
        have hparr : upd par r (some (if wl = true then p else t.fresh)) r = some (if wl = true then p else t.fresh) := updS
        have K := splitParent_pend h hp hgp hidx f4 hfull la ra popup s1 s2 s3 s4 s5 s6 s7
          (upd (upd (upd t.rootf t.fresh false) r false) l false)
          (upd (upd (upd (upd t.locked p true) t.fresh true) r false) l false)
          (upd par r (some (if wl = true then p else t.fresh)))
          (fun y h1 h2 h3 => by rw [updN h1, updN h2, updN h3])
          (fun y h1 h2 h3 h4 => by rw [updN h1, updN h2, updN h3, updN h4])
          updS (by rw [updN hne.symm, updS])
          (by rw [updN hpl, updN hpr, updN hpne, updS])
          (by rw [updN (by omega : t.fresh ≠ l), updN (by omega : t.fresh ≠ r), updS])
          (by
            intro y j hj hc
            by_cases e : y = r
            · subst e
              rw [updS]
              have := s7 j hj
              rw [hc] at this
              have := (hvr _ (by omega)).1 this.symm
              rw [if_neg (fun hw => by have := s8.1 hw; omega)]
            · rw [updN e]; exact q2 j y (by omega) hc)
          (by
            intro j hj hc
            rw [updS]
            have := s4 j hj
            rw [hc] at this
            have := (hvr _ (by omega)).1 this.symm
            rw [if_pos (s8.2 (by omega))])
          (by
            intro y h1 h2 h3
            rw [updN h1, q3 y (fun j hj => h3 j (by omega))]
            exact updN h2)
        obtain ⟨K1, K2, K3⟩ := K
        have hkT : (upd t.kind t.fresh (some Kind.inode)) p = some Kind.inode := by rw [updN hpne]; exact hkp
        have hparp : upd par r (some (if wl = true then p else t.fresh)) p = t.parent p := by
          rw [updN hpr, q3 p ?_]
          · exact updN hpne
          · intro j hj hc
            rw [s7 j (by omega)] at hc
            have := (hvc _ p (by omega) hc).2
            omega
        have hup := I.up p ip hip
        have := ih _ _ p t.fresh popup _ _ (t.root == p) (!(t.root == p) && (t.parent p).isNone && t.rootf p) false K1
          (by simpa using hkT)
          (by
            intro hpn
            have hpn : t.parent p = none := by rw [← hparp]; exact hpn
            have hrt := (hup.top hpn).1
            by_cases e : t.root = p
            · exact Or.inr ⟨by simp [e], by simp [e], e⟩
            · exact Or.inl ⟨by simp [e, hpn, hrt], e⟩)
          (by
            intro x hx
            by_cases e : x = t.fresh
            · subst e
              rw [hgt_inode (by exact updS)]
              show upd t.height t.fresh (t.height p) t.fresh + 1 ≤ B
              rw [updS, ← hgt_inode hkp]; exact hB p hpf
            · have : x < t.fresh := by
                have hx : x < t.fresh + 1 := hx
                omega
              have hh := hB x this
              simp only [Verif.Tree.hgt, updN e] at hh ⊢
              exact hh)
          (by
            have : Verif.Tree.hgt t p = Verif.Tree.hgt { t with
                kind := upd t.kind t.fresh (some .inode),
                rootf := upd (upd (upd t.rootf t.fresh false) r false) l false,
                locked := upd (upd (upd (upd t.locked p true) t.fresh true) r false) l false,
                parent := upd par r (some (if wl = true then p else t.fresh)),
                height := upd t.height t.fresh (t.height p), arr := upd (upd t.arr p la) t.fresh ra, fresh := t.fresh + 1 } p := by
              simp only [Verif.Tree.hgt, updN hpne]
            rw [← this]; omega)
        obtain ⟨t', G', h1, h2, h3, h4, h5⟩ := this
        refine ⟨t', G', ?_, h2, K2.trans h3 I.dom K1.inv.dom, fun hu => h4 (K3 hu), h5⟩
        rw [propagate]
        have harr : upd (upd (upd t.arr t.fresh emptyArr) p la) t.fresh ra = upd (upd t.arr p la) t.fresh ra := by
          funext y
          by_cases e : y = t.fresh
          · subst e; rw [updS, updS]
          · rw [updN e, updN e]
            by_cases e2 : y = p
            · subst e2; rw [updS, updS]
            · rw [updN e2, updN e2, updN e]
        have krf : upd t.kind t.fresh (some Kind.inode) r = some (if atLeaf then Kind.leaf else Kind.inode) := by
          rw [updN (by omega : r ≠ t.fresh)]; exact kr
        have hhp0 : upd t.height t.fresh (t.height p) p = t.height p := updN hpne
        simp only [T2] at q1
        rw [harr] at q1
        simp only [getParent, hk, if_true, bind, Except.bind, hp, hnf, if_false, lock, hlp, f1, inodeWidth, hroom,
            setParent, allocInode, hres, harr, s2, Nat.reduceAdd, q1, krf, unlockSplit, unlock, hhp0, Bool.false_eq_true, if_false]
        exact h1

end Verif.Tree
