import Verif.Proof.TreeStrong
import Verif.Proof.TreeHeight
set_option linter.unusedSimpArgs false
set_option linter.unusedVariables false
/-!
# One insert: what it does to the entries of the tree
-/
namespace Verif.Tree
open Verif.Spec (Bytes chunk lenClass NoClash)
open Verif.Internode (Arr upd)
open Verif.Perm (size get back backAtOffset insertFromBack swapFreeSlots setSize makeSorted24 params24)
variable {V : Type}
variable {t : Tree V} {G : Ghost} {lk : Nat → Prop}

/-- Layer identities are node numbers. -/
def IdB (t : Tree V) (G : Ghost) : Prop := ∀ x i, G x = some i → i.pfx.id < t.fresh

/-- Only one layer has the empty prefix. -/
def R0 (G : Ghost) : Prop := ∀ x y ix iy, G x = some ix → G y = some iy → ix.pfx.bytes = [] → iy.pfx.bytes = [] → ix.pfx = iy.pfx

/-- What one insert of `v` under `d` does; `r` is the reported previous value. -/
structure Step (K : Bytes → Prop) (t : Tree V) (G : Ghost) (d : Bytes) (v : V) (r : Option V) (t' : Tree V) (G' : Ghost) :
    Prop where
  inv : Inv0 t' G'
  ru : RU t' G'
  idb : IdB t' G'
  sound : ∀ d' v', Has t' G' d' v' → Has t G d' v' ∨ (d' = d ∧ v' = v)
  keep : ∀ d' v', d' ≠ d → Has t G d' v' → Has t' G' d' v'
  new : Has t' G' d v
  old : ∀ o, r = some o → Has t G d o
  count : t'.count = t.count + if r.isNone then 1 else 0
  strong : NoClash K → K d → Strong K t G → Strong K t' G'
  none : NoClash K → K d → Strong K t G → r = none → ∀ v', ¬ Has t G d v'
  occ : ∀ p, (∃ e, HasE t G p e) → ∃ e, HasE t' G' p e
  r0 : R0 G → R0 G'
  fresh : t.fresh ≤ t'.fresh
  kind : ∀ x, x < t.fresh → t'.kind x = t.kind x
  low : ∀ x i, G x = some i → ∃ i', G' x = some i' ∧ i'.pfx = i.pfx ∧ i'.lo = i.lo ∧ ∀ z, ltHi z i'.hi → ltHi z i.hi
  anti : HiStrict t' G' → HiStrict t G
  neat : HiStrict t' G' → Neat t G → Neat t' G'
  nil : HiStrict t' G' → Neat t G → r = Option.none → ∀ v', ¬ Has t G d v'

theorem newEnt_klx {k : Key} {D : Bytes} {m : Nat} (h : k.Sees D m) (hm : 8 * m < D.length) (v : V) : (newEnt k v).klx ≠ 0 := by
  have hc := h.currentLen
  rw [List.length_drop] at hc
  rcases searchKlx_cases k with ⟨a1, a2, _⟩ | ⟨a1, a2, a3, _⟩
  · show searchKlx k ≠ 0; omega
  · show searchKlx k ≠ 0; omega

theorem newEnt_entKey {k : Key} {D : Bytes} {m : Nat} (h : k.Sees D m) (hm : 8 * m ≤ D.length) (P : Bytes) (v : V) :
    EntKey (P ++ D.take (8 * m)) (newEnt k v) (P ++ D) := by
  refine ⟨D.drop (8 * m), by rw [List.append_assoc, List.take_append_drop], h.ikey_eq.symm, ?_⟩
  have hs := h.hasSuffix
  rcases searchKlx_cases k with ⟨a1, a2, _⟩ | ⟨a1, a2, a3, _⟩
  · right
    rw [a1] at hs
    have := of_decide_eq_true hs.symm
    refine ⟨a2, this, ?_⟩
    simp only [newEnt, a1, if_true]
    rw [h.suffix]
  · left
    simp only [newEnt]
    rw [a2, h.currentLen]
    rw [h.currentLen] at a3
    exact ⟨rfl, a3⟩

/-! ## The leaf reached -/

theorem advance_ok (h : Inv0 t G) {y : Nat} {iy : Info} (hy : G y = some iy) (hk : t.kind y = some .leaf) {ik : Nat}
    (hr : InR ik iy) (f : Nat) : ∃ l il, advance t ik (f + 2) y = .ok (l, false) ∧ G l = some il ∧ t.kind l = some .leaf ∧
      il.pfx = iy.pfx ∧ il.lo ≤ ik ∧ ltHi ik il.hi := by
  have stop : ∀ {x : Nat} {i : Info} (f : Nat), G x = some i → t.kind x = some .leaf → ltHi ik i.hi →
      advance t ik (f + 1) x = .ok (x, false) := by
    intro x i f hx hkx hlt
    cases hn : t.next x with
    | none => simp [advance, hn]
    | some q =>
      obtain ⟨iq, hq, hbd⟩ := next_bound h hkx hx hn
      have : ¬ iq.lo ≤ ik := by have := hlt _ hq.lo; omega
      simp [advance, hn, hbd, this, bind, Except.bind]
  by_cases hlt : ltHi ik iy.hi
  · exact ⟨y, iy, stop (f + 1) hy hk hlt, hy, hk, rfl, hr.lo, hlt⟩
  · have heq : iy.hi = some ik := by
      cases hh : iy.hi with
      | none => exact absurd (by rw [hh]; simp) hlt
      | some z =>
        have := hr.hi z hh
        have : ¬ ik < z := by intro hz; exact hlt (by rw [hh]; simpa using hz)
        congr 1; omega
    have hlo := hr.eq heq
    cases hn : t.next y with
    | none => have := (h.link y iy hk hy).nonext hn; rw [heq] at this; cases this
    | some q =>
      obtain ⟨iq, hq, hbd⟩ := next_bound h hk hy hn
      have hqlo : iq.lo = ik := by have := hq.lo; rw [heq] at this; exact (Option.some.inj this).symm
      have hqhi : ltHi ik iq.hi := by
        have := hq.tight (Or.inl (by rw [heq, hlo]))
        rwa [hqlo] at this
      refine ⟨q, iq, ?_, hq.dom, hq.kind, hq.pfx, by omega, hqhi⟩
      have := stop f hq.dom hq.kind hqhi
      rw [advance]
      simp [hn, hbd, hqlo, this, bind, Except.bind]

theorem Inv0.unlocked (h : Inv0 t G) {x : Nat} {i : Info} (hx : G x = some i) : t.locked x = false := by
  have := h.locks x (h.lt hx)
  cases hq : t.locked x with
  | false => rfl
  | true => exact absurd (this.1 hq) id

/-- The tree with the leaf `l` locked. -/
def lockT (t : Tree V) (l : Nat) : Tree V := { t with locked := upd t.locked l true }

theorem lock_ok {l : Nat} (hl : t.locked l = false) : lock t l = .ok (lockT t l) := by
  simp [lock, hl, lockT]

theorem unlock_lock {l : Nat} (hl : t.locked l = false) : unlock (lockT t l) l = t := by
  have : upd (upd t.locked l true) l false = t.locked := by
    funext x
    by_cases e : x = l
    · subst e; rw [updS, hl]
    · rw [updN e, updN e]
  simp only [unlock, lockT, this]

theorem lock_inv (h : Inv0 t G) {l : Nat} : Inv (lockT t l) G G (fun x => x = l) := by
  have := h.setLocks (lk' := fun x => x = l) (upd t.locked l true) (by
    intro y hy
    by_cases e : y = l
    · subst e; simp [updS]
    · rw [updN e]
      have := h.locks y hy
      simp only [iff_false, e] at this ⊢
      exact this) t.count
  exact this

theorem relock_false {t : Tree V} {l : Nat} (h : Inv t G G (fun x => x = l)) : ∀ y, y < t.fresh →
    (upd t.locked l false y = true ↔ False) := by
  intro y hy
  by_cases e : y = l
  · subst e; simp [updS]
  · rw [updN e]
    have := h.locks y hy
    simp only [iff_false, e] at this ⊢
    exact this

/-! ## Entries of the other leaves -/

/-- Entries outside the leaf `l`. -/
def HasX (t : Tree V) (G : Ghost) (l : Nat) (pfx : Bytes) (e : Ent V) : Prop :=
  ∃ x i j, x ≠ l ∧ G x = some i ∧ t.kind x = some .leaf ∧ i.pfx.bytes = pfx ∧ j < (t.body x).n ∧ (t.body x).ent j = e

theorem hasE_split {l : Nat} {i : Info} (hl : G l = some i) (hk : t.kind l = some .leaf) {p : Bytes} {e : Ent V} :
    HasE t G p e ↔ HasX t G l p e ∨ (i.pfx.bytes = p ∧ ∃ j, j < (t.body l).n ∧ (t.body l).ent j = e) := by
  constructor
  · rintro ⟨x, ix, j, h1, h2, h3, h4, h5⟩
    by_cases c : x = l
    · subst c
      rw [hl] at h1; cases h1
      exact Or.inr ⟨h3, j, h4, h5⟩
    · exact Or.inl ⟨x, ix, j, c, h1, h2, h3, h4, h5⟩
  · rintro (⟨x, ix, j, c, h⟩ | ⟨h1, j, h2, h3⟩)
    · exact ⟨x, ix, j, h⟩
    · exact ⟨l, i, j, hl, hk, h1, h2, h3⟩

theorem hasE_set {l : Nat} {i : Info} (hl : G l = some i) (hk : t.kind l = some .leaf) (nb : Leaf V) (lf : Nat → Bool) (c : Nat)
    {p : Bytes} {e : Ent V} : HasE { t with body := upd t.body l nb, locked := lf, count := c } G p e ↔
      HasX t G l p e ∨ (i.pfx.bytes = p ∧ ∃ j, j < nb.n ∧ nb.ent j = e) := by
  rw [hasE_split (t := { t with body := upd t.body l nb, locked := lf, count := c }) hl hk]
  show (HasX _ G l p e ∨ (i.pfx.bytes = p ∧ ∃ j, j < (upd t.body l nb l).n ∧ (upd t.body l nb l).ent j = e)) ↔ _
  rw [updS]
  refine or_congr ?_ Iff.rfl
  constructor
  · rintro ⟨x, ix, j, h0, h1, h2, h3, h4, h5⟩
    change j < (upd t.body l nb x).n at h4
    change (upd t.body l nb x).ent j = e at h5
    rw [updN h0] at h4 h5
    exact ⟨x, ix, j, h0, h1, h2, h3, h4, h5⟩
  · rintro ⟨x, ix, j, h0, h1, h2, h3, h4, h5⟩
    refine ⟨x, ix, j, h0, h1, h2, h3, ?_, ?_⟩
    · show j < (upd t.body l nb x).n; rw [updN h0]; exact h4
    · show (upd t.body l nb x).ent j = e; rw [updN h0]; exact h5

/-- The tree after the locked leaf `l` got the body `nb` and was unlocked. -/
def putT (t : Tree V) (l : Nat) (nb : Leaf V) (c : Nat) : Tree V :=
  { t with body := upd t.body l nb, locked := upd t.locked l false, count := c }

/-! ## Overwriting a value -/

variable {K : Bytes → Prop} {d : Bytes} {n : Nat} {k : Key} {v : V} {l : Nat} {i : Info}

theorem step_found (h : Inv0 t G) (ru : RU t G) (idb : IdB t G) (hk : k.Sees d n) (hl : G l = some i)
    (hkl : t.kind l = some .leaf) (hp : i.pfx.bytes = d.take (8 * n)) {j : Nat} (hj : j < (t.body l).n)
    (hm : Matches ((t.body l).ent j) k) {old : V} (hc : ((t.body l).ent j).cell = .val old)
    (hkx : ((t.body l).ent j).klx = searchKlx k) :
    Step K t G d v (some old)
      (putT (lockT t l) l { (t.body l) with cell := upd (t.body l).cell (get 5 (t.body l).perm j) (.val v) } t.count) G := by
  have hT := lock_inv h (l := l)
  have hbd := h.body l i hkl hl
  let b := t.body l
  let nb : Leaf V := { b with cell := upd b.cell (get 5 b.perm j) (.val v) }
  let e' : Ent V := { b.ent j with cell := .val v }
  have hsame : ∀ s, s ≠ get 5 b.perm j → entAt nb s = entAt b s := by
    intro s hs
    simp only [entAt, nb, Leaf.suf, updN hs]
  have he : entAt nb (get 5 b.perm j) = e' := by
    simp only [entAt, nb, Leaf.suf, updS, e', Leaf.ent]
  have hne : (b.ent j).klx ≠ 128 := by
    show ((t.body l).ent j).klx ≠ 128
    rcases searchKlx_cases k with ⟨a1, a2, _⟩ | ⟨a1, a2, a3, _⟩ <;> omega
  have hok : EntOK e' := by
    cases hbd.ok j hj with
    | inline a _ _ => exact .inline a v rfl
    | suffix a _ _ s b c d => exact .suffix a v rfl s b c d
    | layer a q _ => exact absurd a hne
  have hn : nb.n = b.n := rfl
  have hent : ∀ j', j' < b.n → nb.ent j' = if j' = j then e' else b.ent j' := by
    intro j' hj'; rw [set_ent (b := b) (nb := nb) hbd.perm hj rfl hsame j' hj', he]
  have hik : ∀ j', j' < b.n → (nb.ent j').ikey = (b.ent j').ikey := by
    intro j' hj'
    rw [hent j' hj']
    split
    · rename_i c; subst c; rfl
    · rfl
  have hek : EntKey i.pfx.bytes (b.ent j) d := entKey_of_matches hk hp hm hne
  have hek' : EntKey i.pfx.bytes e' d := by
    obtain ⟨r, h1, h2, h3⟩ := hek
    exact ⟨r, h1, h2, h3⟩
  have hinv := hT.setBody (lk' := fun _ => False) hl hkl nb (bodyOK_set hbd hj rfl hsame e' he hok rfl rfl)
    (by
      intro j' hj' q hq
      have hl' := h.layer l i hkl hl
      rw [hent j' hj'] at hq ⊢
      by_cases c : j' = j
      · rw [if_pos c] at hq; cases hq
      · rw [if_neg c] at hq ⊢; exact hl' j' hj' q hq)
    (by
      intro hpv
      exact (h.link l i hkl hl).slot0 hpv)
    (by
      rintro (c | ⟨j', c1, c2⟩)
      · exact Or.inl c
      · exact Or.inr ⟨j', c1, by rw [c2, hik j' c1]; rfl⟩)
    (upd (lockT t l).locked l false) (relock_false hT) t.count
  have hHE' : ∀ p e, HasE (putT (lockT t l) l nb t.count) G p e ↔
      HasX t G l p e ∨ (i.pfx.bytes = p ∧ ∃ j, j < nb.n ∧ nb.ent j = e) := fun p e => hasE_set hl hkl nb _ t.count
  have hHE : ∀ p e, HasE t G p e ↔ HasX t G l p e ∨ (i.pfx.bytes = p ∧ ∃ j, j < b.n ∧ b.ent j = e) :=
    fun p e => hasE_split hl hkl
  have back : ∀ p e, HasE (putT (lockT t l) l nb t.count) G p e →
      HasE t G p e ∨ (i.pfx.bytes = p ∧ e = e') := by
    intro p e he
    rcases (hHE' p e).1 he with c | ⟨c1, j', c2, c3⟩
    · exact Or.inl ((hHE p e).2 (Or.inl c))
    · rw [hent j' c2] at c3
      split at c3
      · exact Or.inr ⟨c1, c3.symm⟩
      · exact Or.inl ((hHE p e).2 (Or.inr ⟨c1, j', c2, c3⟩))
  have forth : ∀ p e, HasE t G p e → HasE (putT (lockT t l) l nb t.count) G p e ∨
      (i.pfx.bytes = p ∧ e = b.ent j) := by
    intro p e he
    rcases (hHE p e).1 he with c | ⟨c1, j', c2, c3⟩
    · exact Or.inl ((hHE' p e).2 (Or.inl c))
    · by_cases cj : j' = j
      · subst cj; exact Or.inr ⟨c1, c3.symm⟩
      · exact Or.inl ((hHE' p e).2 (Or.inr ⟨c1, j', c2, by rw [hent j' c2, if_neg cj, c3]⟩))
  have hadd : HasE (putT (lockT t l) l nb t.count) G i.pfx.bytes e' :=
    (hHE' _ _).2 (Or.inr ⟨rfl, j, hj, by rw [hent j hj, if_pos rfl]⟩)
  have hrem : HasE t G i.pfx.bytes (b.ent j) := (hHE _ _).2 (Or.inr ⟨rfl, j, hj, rfl⟩)
  refine ⟨hinv, ru, idb, ?_, ?_, has_iff.2 ⟨_, _, hadd, rfl, hek'⟩, ?_, rfl, ?_, ?_, ?_, id, Nat.le_refl _, fun _ _ => rfl,
    fun x i b => ⟨i, b, rfl, rfl, fun _ => id⟩, ?_, ?_, fun _ _ c => by cases c⟩
  · intro d' v' hv
    obtain ⟨p, e, h1, h2, h3⟩ := has_iff.1 hv
    rcases back p e h1 with c | ⟨c1, c2⟩
    · exact Or.inl (has_iff.2 ⟨p, e, c, h2, h3⟩)
    · subst c2; subst c1
      exact Or.inr ⟨entKey_unique h3 hek', by cases h2; rfl⟩
  · intro d' v' hd hv
    obtain ⟨p, e, h1, h2, h3⟩ := has_iff.1 hv
    rcases forth p e h1 with c | ⟨c1, c2⟩
    · exact has_iff.2 ⟨p, e, c, h2, h3⟩
    · subst c2; subst c1
      exact absurd (entKey_unique h3 hek) hd
  · intro o ho
    cases ho
    exact has_iff.2 ⟨_, _, hrem, hc, hek⟩
  · intro hK hKd S
    refine ⟨?_, ?_, S.bu, ?_⟩
    · intro x ix hkx' hx
      by_cases c : x = l
      · subst c
        have hix : ix = i := by rw [hl] at hx; exact (Option.some.inj hx).symm
        subst hix
        show Strict (upd t.body x nb x) ix
        rw [updS]
        have s := S.strict x ix hkl hl
        refine ⟨?_, ?_, s.ne⟩
        · intro a c h1 h2
          rw [hik a (Nat.lt_trans h1 h2), hik c h2]; exact s.lt a c h1 h2
        · intro a h1; rw [hik a h1]; exact s.hi a h1
      · show Strict (upd t.body l nb x) ix
        rw [updN c]; exact S.strict x ix hkx' hx
    · intro p e he
      rcases back p e he with c | ⟨c1, c2⟩
      · exact S.key p e c
      · subst c2; subst c1
        exact ⟨d, hKd, hek'.path, fun _ => hek'⟩
    · intro x ix hx hne'
      obtain ⟨p, c, e, q, o1, o2, o3, o4, o5, o6⟩ := S.owner x ix hx hne'
      refine ⟨p, c, e, q, o1, o2, ?_, o4, o5, o6⟩
      rcases forth p e o3 with c | ⟨c1, c2⟩
      · exact c
      · subst c2; exact absurd o4 hne
  · intro _ _ _ c; cases c
  · rintro p ⟨e, he⟩
    rcases forth p e he with c | ⟨c1, c2⟩
    · exact ⟨e, c⟩
    · subst c1; exact ⟨e', hadd⟩
  · intro hs x ix hkx' hx a ha
    have := hs x ix hkx' hx
    change ∀ j, j < (upd t.body l nb x).n → ltHi ((upd t.body l nb x).ent j).ikey ix.hi at this
    by_cases c : x = l
    · subst c
      rw [updS] at this
      have := this a ha
      rwa [hik a ha] at this
    · rw [updN c] at this
      exact this a ha
  · intro hs S
    refine ⟨hs, S.ne, ?_, S.bu, ?_⟩
    · intro p e he hp'
      rcases back p e he with c | ⟨c1, c2⟩
      · exact S.nz p e c hp'
      · subst c2; subst c1
        exact S.nz _ (b.ent j) hrem hp'
    · intro x ix hx hne'
      obtain ⟨p, c, e, q, o1, o2, o3, o4, o5, o6⟩ := S.owner x ix hx hne'
      refine ⟨p, c, e, q, o1, o2, ?_, o4, o5, o6⟩
      rcases forth p e o3 with c | ⟨c1, c2⟩
      · exact c
      · subst c2; exact absurd o4 hne

/-! ## Adding an entry to a leaf with room -/

theorem step_insert (h : Inv0 t G) (ru : RU t G) (idb : IdB t G) (hk : k.Sees d n) (hd : d.length ≤ 256) (hl : G l = some i)
    (hkl : t.kind l = some .leaf) (hp : i.pfx.bytes = d.take (8 * n)) (hn8 : 8 * n ≤ d.length) (hn0 : n = 0 ∨ 8 * n < d.length)
    (hlo : i.lo ≤ k.ikey) (hhi : ltHi k.ikey i.hi) (hs : (t.body l).n < 24) {pos : Nat} (hpos : pos ≤ (t.body l).n)
    (h1 : ∀ j, j < pos → ((t.body l).ent j).ikey ≤ k.ikey)
    (h2 : ∀ j, pos ≤ j → j < (t.body l).n → k.ikey < ((t.body l).ent j).ikey)
    (h3 : ∀ j, j < (t.body l).n → ((t.body l).ent j).ikey = k.ikey → cls ((t.body l).ent j).klx ≠ kcls k) :
    Step K t G d v none
      (putT (lockT t l) l { (assignSlot (t.body l) (back 5 24 (t.body l).perm) k v) with
        perm := (insertFromBack 5 24 (t.body l).perm pos).1 } (t.count + 1)) G ∧
    ∃ e, HasE (putT (lockT t l) l { (assignSlot (t.body l) (back 5 24 (t.body l).perm) k v) with
        perm := (insertFromBack 5 24 (t.body l).perm pos).1 } (t.count + 1)) G i.pfx.bytes e := by
  have hT := lock_inv h (l := l)
  have hbd := h.body l i hkl hl
  let b := t.body l
  let s := back 5 24 b.perm
  let nb : Leaf V := { (assignSlot b s k v) with perm := (insertFromBack 5 24 b.perm pos).1 }
  let e' : Ent V := newEnt k v
  have hsame : ∀ s', s' ≠ back 5 24 b.perm → entAt nb s' = entAt b s' := by
    intro s' hs'
    exact assignSlot_other b s k v s' hs'
  have he : entAt nb (back 5 24 b.perm) = e' := assignSlot_entAt b s k v
  have hok : EntOK e' := newEnt_ok_at hk hd v
  have hn : nb.n = b.n + 1 := insert_n nb hs hpos rfl
  have hent : ∀ j, j ≤ b.n → nb.ent j = if j < pos then b.ent j else if j = pos then e' else b.ent (j - 1) := by
    intro j hj; rw [insert_ent (b := b) (nb := nb) hbd.perm hs hpos rfl hsame j hj, he]
  have hfwd : ∀ e, (∃ j, j < b.n ∧ b.ent j = e) → ∃ j, j < nb.n ∧ nb.ent j = e := by
    rintro e ⟨j, g1, g2⟩
    by_cases c : j < pos
    · exact ⟨j, by omega, by rw [hent j (by omega), if_pos c, g2]⟩
    · refine ⟨j + 1, by omega, ?_⟩
      rw [hent (j + 1) (by omega), if_neg (by omega), if_neg (by omega), Nat.add_sub_cancel, g2]
  have hbwd : ∀ e, (∃ j, j < nb.n ∧ nb.ent j = e) → e = e' ∨ ∃ j, j < b.n ∧ b.ent j = e := by
    rintro e ⟨j, g1, g2⟩
    rw [hent j (by omega)] at g2
    by_cases c : j < pos
    · rw [if_pos c] at g2; exact Or.inr ⟨j, by have : pos ≤ b.n := hpos; omega, g2⟩
    · rw [if_neg c] at g2
      by_cases c2 : j = pos
      · rw [if_pos c2] at g2; exact Or.inl g2.symm
      · rw [if_neg c2] at g2; exact Or.inr ⟨j - 1, by omega, g2⟩
  have hek' : EntKey i.pfx.bytes e' d := by
    have := newEnt_entKey hk hn8 [] v
    rw [hp]; exact this
  have hslot0 : t.prev l ≠ none → get 5 nb.perm 0 = 0 ∧ 0 < nb.n ∧ nb.ikey 0 = i.lo := by
    intro hpv
    obtain ⟨g1, g2, g3⟩ := (h.link l i hkl hl).slot0 hpv
    have hpos0 : pos ≠ 0 := by
      intro c
      have hx := h2 0 (by omega) g2
      have : (b.ent 0).ikey = b.ikey 0 := by
        show b.ikey (get 5 b.perm 0) = _
        rw [g1]
      have hx : k.ikey < (b.ent 0).ikey := hx
      have : b.ikey 0 = i.lo := g3
      omega
    have hs0 : (0 : Nat) ≠ s := by
      intro c
      have : get 5 b.perm 0 = get 5 b.perm 23 := by rw [g1]; exact c
      have := hbd.perm.inj 0 23 (by omega) (by omega) this
      omega
    refine ⟨?_, by omega, ?_⟩
    · show get 5 (insertFromBack 5 24 b.perm pos).1 0 = 0
      rw [Verif.Perm.get_insertFromBack params24 b.perm (by have : pos ≤ b.n := hpos; have : b.n < 24 := hs; omega) (by omega) hs,
        if_pos (by omega)]
      exact g1
    · have := congrArg Ent.ikey (hsame 0 hs0)
      exact this.trans g3
  have hinv := hT.setBody (lk' := fun _ => False) hl hkl nb
    (bodyOK_insert hbd hs hpos rfl hsame e' he hok hlo hhi.le h1 h2
      (fun j hj e => by rw [newEnt_cls]; exact h3 j hj e))
    (by
      intro j hj q hq
      rcases hbwd _ ⟨j, hj, rfl⟩ with c | ⟨j', c1, c2⟩
      · rw [c] at hq; cases hq
      · rw [← c2] at hq ⊢; exact h.layer l i hkl hl j' c1 q hq)
    hslot0
    (by
      rintro (c | ⟨j', c1, c2⟩)
      · exact Or.inl c
      · rcases hbwd _ ⟨j', c1, rfl⟩ with c | ⟨j, c3, c4⟩
        · rw [c] at c2
          have := hhi _ c2
          exact absurd this (Nat.lt_irrefl _)
        · exact Or.inr ⟨j, c3, by rw [c2, ← c4]; rfl⟩)
    (upd (lockT t l).locked l false) (relock_false hT) (t.count + 1)
  have hHE' : ∀ p e, HasE (putT (lockT t l) l nb (t.count + 1)) G p e ↔
      HasX t G l p e ∨ (i.pfx.bytes = p ∧ ∃ j, j < nb.n ∧ nb.ent j = e) := fun p e => hasE_set hl hkl nb _ (t.count + 1)
  have hHE : ∀ p e, HasE t G p e ↔ HasX t G l p e ∨ (i.pfx.bytes = p ∧ ∃ j, j < b.n ∧ b.ent j = e) :=
    fun p e => hasE_split hl hkl
  have back : ∀ p e, HasE (putT (lockT t l) l nb (t.count + 1)) G p e → HasE t G p e ∨ (i.pfx.bytes = p ∧ e = e') := by
    intro p e he
    rcases (hHE' p e).1 he with c | ⟨c1, c2⟩
    · exact Or.inl ((hHE p e).2 (Or.inl c))
    · rcases hbwd e c2 with c | c
      · exact Or.inr ⟨c1, c⟩
      · exact Or.inl ((hHE p e).2 (Or.inr ⟨c1, c⟩))
  have forth : ∀ p e, HasE t G p e → HasE (putT (lockT t l) l nb (t.count + 1)) G p e := by
    intro p e he
    rcases (hHE p e).1 he with c | ⟨c1, c2⟩
    · exact (hHE' p e).2 (Or.inl c)
    · exact (hHE' p e).2 (Or.inr ⟨c1, hfwd e c2⟩)
  have hadd : HasE (putT (lockT t l) l nb (t.count + 1)) G i.pfx.bytes e' := by
    refine (hHE' _ _).2 (Or.inr ⟨rfl, pos, by have : pos ≤ b.n := hpos; omega, ?_⟩)
    rw [hent pos hpos, if_neg (Nat.lt_irrefl _), if_pos rfl]
  -- with distinct chunks only
  have hfree : NoClash K → K d → Strong K t G → ∀ j, j < b.n → (b.ent j).ikey ≠ k.ikey := by
    intro hK hKd S j hj e
    obtain ⟨k2, g1, g2, _⟩ := S.key _ _ ((hHE i.pfx.bytes (b.ent j)).2 (Or.inr ⟨rfl, j, hj, rfl⟩))
    apply h3 j hj e
    have hlen : i.pfx.bytes.length = 8 * n := by rw [hp, List.length_take]; omega
    have e1 := g2.pre
    have e2 := g2.ikey
    have e3 := g2.cls
    have e4 := g2.le
    rw [hlen] at e1 e2 e3 e4
    have := hK.cls g1 hKd e4 hn8 (by rw [← e1, hp]) (by rw [e2, e, hk.ikey_eq])
    rw [e3, ← kcls_at hk] at this
    exact this
  refine ⟨?_, _, hadd⟩
  refine ⟨hinv, ru, idb, ?_, ?_, has_iff.2 ⟨_, _, hadd, rfl, hek'⟩, ?_, rfl, ?_, ?_, ?_, id, Nat.le_refl _, fun _ _ => rfl,
    fun x i b => ⟨i, b, rfl, rfl, fun _ => id⟩, ?_, ?_, ?_⟩
  · intro d' v' hv
    obtain ⟨p, e, h1, h2, h3⟩ := has_iff.1 hv
    rcases back p e h1 with c | ⟨c1, c2⟩
    · exact Or.inl (has_iff.2 ⟨p, e, c, h2, h3⟩)
    · subst c2; subst c1
      exact Or.inr ⟨entKey_unique h3 hek', by cases h2; rfl⟩
  · intro d' v' hd hv
    obtain ⟨p, e, h1, h2, h3⟩ := has_iff.1 hv
    exact has_iff.2 ⟨p, e, forth p e h1, h2, h3⟩
  · intro o ho; cases ho
  · intro hK hKd S
    refine ⟨?_, ?_, S.bu, ?_⟩
    · intro x ix hkx' hx
      by_cases c : x = l
      · subst c
        have hix : ix = i := by rw [hl] at hx; exact (Option.some.inj hx).symm
        subst hix
        show Strict (upd t.body x nb x) ix
        rw [updS]
        have st := S.strict x ix hkl hl
        have hf := hfree hK hKd S
        refine ⟨?_, ?_, st.ne⟩
        · intro a c g1 g2
          have hb' := hinv.body x ix hkl hl
          have hb' : BodyOK nb ix.lo ix.hi := by
            have h0 : BodyOK (upd t.body x nb x) ix.lo ix.hi := hb'
            rwa [updS] at h0
          have hle := hb'.sorted a c g1 g2
          rcases Nat.lt_or_eq_of_le hle with h | h
          · exact h
          · exfalso
            have ea := hent a (by omega)
            have ec := hent c (by omega)
            have hpb : pos ≤ b.n := hpos
            have e'i : e'.ikey = k.ikey := rfl
            rcases Nat.lt_trichotomy c pos with c1 | c1 | c1
            · rw [if_pos (by omega)] at ea ec
              rw [ea, ec] at h
              have := st.lt a c g1 (by show c < b.n; omega)
              have : (b.ent a).ikey < (b.ent c).ikey := this
              omega
            · rw [if_pos (by omega)] at ea
              rw [if_neg (by omega), if_pos c1] at ec
              rw [ea, ec] at h
              exact hf a (by omega) h
            · rw [if_neg (by omega), if_neg (by omega)] at ec
              rcases Nat.lt_trichotomy a pos with c2 | c2 | c2
              · rw [if_pos c2] at ea
                rw [ea, ec] at h
                have := st.lt a (c - 1) (by omega) (by show c - 1 < b.n; omega)
                have : (b.ent a).ikey < (b.ent (c - 1)).ikey := this
                omega
              · rw [if_neg (by omega), if_pos c2] at ea
                rw [ea, ec] at h
                exact hf (c - 1) (by omega) h.symm
              · rw [if_neg (by omega), if_neg (by omega)] at ea
                rw [ea, ec] at h
                have := st.lt (a - 1) (c - 1) (by omega) (by show c - 1 < b.n; omega)
                have : (b.ent (a - 1)).ikey < (b.ent (c - 1)).ikey := this
                omega
        · intro a g1
          rcases hbwd _ ⟨a, g1, rfl⟩ with c | ⟨j, c3, c4⟩
          · rw [c]; exact hhi
          · rw [← c4]; exact st.hi j c3
      · show Strict (upd t.body l nb x) ix
        rw [updN c]; exact S.strict x ix hkx' hx
    · intro p e he
      rcases back p e he with c | ⟨c1, c2⟩
      · exact S.key p e c
      · subst c2; subst c1
        exact ⟨d, hKd, hek'.path, fun _ => hek'⟩
    · intro x ix hx hne'
      obtain ⟨p, c, e, q, o1, o2, o3, o4, o5, o6⟩ := S.owner x ix hx hne'
      exact ⟨p, c, e, q, o1, o2, forth p e o3, o4, o5, o6⟩
  · intro hK hKd S _ v' hv
    obtain ⟨e, e1, e2, _⟩ := S.path_entry hK h ru hv hn8 ⟨l, i, hl, hp⟩ hk
    obtain ⟨j, j1, j2⟩ := S.in_leaf h ru e1 hl hkl hp (by rw [e2.1]; exact hlo) (by rw [e2.1]; exact hhi)
    rw [← j2] at e2
    exact h3 j j1 e2.1 (matches_cls e2)
  · rintro p ⟨e, he⟩; exact ⟨e, forth p e he⟩
  · intro hs x ix hkx' hx a ha
    have := hs x ix hkx' hx
    change ∀ j, j < (upd t.body l nb x).n → ltHi ((upd t.body l nb x).ent j).ikey ix.hi at this
    by_cases c : x = l
    · subst c
      rw [updS] at this
      obtain ⟨a', g1, g2⟩ := hfwd _ ⟨a, ha, rfl⟩
      have := this a' g1
      rwa [g2] at this
    · rw [updN c] at this
      exact this a ha
  · intro hs S
    refine ⟨hs, S.ne, ?_, S.bu, ?_⟩
    · intro p e he hp'
      rcases back p e he with c | ⟨c1, c2⟩
      · exact S.nz p e c hp'
      · subst c2; subst c1
        rcases hn0 with c | c
        · exact absurd (by rw [hp, c]; simp) hp'
        · exact newEnt_klx hk c v
    · intro x ix hx hne'
      obtain ⟨p, c, e, q, o1, o2, o3, o4, o5, o6⟩ := S.owner x ix hx hne'
      exact ⟨p, c, e, q, o1, o2, forth p e o3, o4, o5, o6⟩
  · intro _ S _ v' hv
    obtain ⟨e, e1, e2, _⟩ := S.path_entry h ru hv hn0 ⟨l, i, hl, hp⟩ hk
    obtain ⟨j, j1, j2⟩ := S.in_leaf h ru e1 hl hkl hp (by rw [e2.1]; exact hlo) (by rw [e2.1]; exact hhi)
    rw [← j2] at e2
    exact h3 j j1 e2.1 (matches_cls e2)

/-! ## Moving an entry into a new sublayer -/

/-- Entries of the new sublayer. -/
def NewE (f : Nat) (se d : Bytes) (n0 m : Nat) (x1 x2 : Ent V) (p : Bytes) (e : Ent V) : Prop :=
  (∃ a, a < m ∧ p = d.take (8 * (n0 + a)) ∧ e = ⟨chunk (se.drop (8 * a)), 128, .layer (f + a + 1), none⟩) ∨
  (p = d.take (8 * (n0 + m)) ∧ (e = x1 ∨ e = x2))

/-- Ghost description after the sublayer was built. -/
def layG (G : Ghost) (f f' : Nat) (d : Bytes) (n0 : Nat) : Ghost := fun x =>
  if x < f then G x else if x < f' then some ⟨⟨d.take (8 * (n0 + (x - f))), x⟩, 0, none⟩ else none

theorem layG_old {f f' : Nat} {n0 x : Nat} (h : x < f) : layG G f f' d n0 x = G x := by simp [layG, h]
theorem layG_new {f f' : Nat} {n0 x : Nat} (h : f ≤ x) (h' : x < f') :
    layG G f f' d n0 x = some ⟨⟨d.take (8 * (n0 + (x - f))), x⟩, 0, none⟩ := by
  simp [layG, h', Nat.not_lt.2 h]

theorem step_conflict (h : Inv0 t G) (ru : RU t G) (idb : IdB t G) (hk : k.Sees d n) (hd : d.length ≤ 256) (hl : G l = some i)
    (hkl : t.kind l = some .leaf) (hp : i.pfx.bytes = d.take (8 * n)) (hlo : i.lo ≤ k.ikey)
    (hhi : ltHi k.ikey i.hi) {j : Nat} (hj : j < (t.body l).n) (hi : ((t.body l).ent j).ikey = k.ikey)
    (hs : k.hasSuffix = true) (hkx : ((t.body l).ent j).klx = 64) {ev : V} (hc : ((t.body l).ent j).cell = .val ev) {se : Bytes}
    (hsf : ((t.body l).ent j).suf = some se) (hne : se ≠ k.suffix) (hs0 : se ≠ []) (hsl : se.length ≤ 256) {t1 : Tree V}
    {m : Nat} (L : LayerOut (lockT t l) se d (n + 1) ev v m t1) :
    Step K t G d v none
      (putT t1 l { (t.body l) with ksuf := upd (t.body l).ksuf (get 5 (t.body l).perm j) none,
                                   klx := upd (t.body l).klx (get 5 (t.body l).perm j) layerKeylenx,
                                   cell := upd (t.body l).cell (get 5 (t.body l).perm j) (.layer t.fresh) } (t.count + 1))
      (layG G t.fresh t1.fresh d (n + 1)) := by
  have hT := lock_inv h (l := l)
  have hbd := h.body l i hkl hl
  have hll := h.lt hl
  have A := L.added
  have hfr : t1.fresh = t.fresh + m + 1 := L.fresh
  have hlen : 8 * n + 8 < d.length := by
    have := hk.hasSuffix
    rw [hs] at this
    have := of_decide_eq_true this.symm
    simp only [List.length_drop] at this; omega
  have hl2 : 8 * m < d.length - 8 * (n + 1) := by
    have := L.l2
    simpa only [List.length_drop] using this
  have hl1 := L.l1
  have hse0 : 0 < se.length := List.length_pos_iff.2 hs0
  obtain ⟨ek, nk, e0, e1, k1, k2, k3, k4, k5, k6, k7⟩ := L.last
  change (t1.body (t.fresh + m)).n = 2 at k4
  change (t1.body (t.fresh + m)).ent 0 = e0 at k5
  change (t1.body (t.fresh + m)).ent 1 = e1 at k6
  change BodyOK (t1.body (t.fresh + m)) 0 none at k7
  have hlb : ∀ a, a < m → t1.body (t.fresh + a) = linkBody (chunk (se.drop (8 * a))) (t.fresh + a + 1) := L.body
  let b := t.body l
  let G' : Ghost := layG G t.fresh t1.fresh d (n + 1)
  have hold : ∀ x, x < t.fresh → G' x = G x := fun x hx => layG_old hx
  have hnewG : ∀ a, a ≤ m → G' (t.fresh + a) = some ⟨⟨d.take (8 * (n + 1 + a)), t.fresh + a⟩, 0, none⟩ := by
    intro a ha
    have := layG_new (G := G) (d := d) (n0 := n + 1) (f := t.fresh) (f' := t1.fresh) (x := t.fresh + a) (by omega) (by omega)
    rw [show t.fresh + a - t.fresh = a by omega] at this
    exact this
  have hnoneG : ∀ x, t1.fresh ≤ x → G' x = none := by
    intro x hx
    show (if x < t.fresh then G x else if x < t1.fresh then _ else none) = none
    rw [if_neg (by omega), if_neg (by omega)]
  have hlenp : ∀ a, a ≤ m → (d.take (8 * (n + 1 + a))).length = 8 * (n + 1 + a) := by
    intro a ha; rw [List.length_take]; omega
  -- chunks along the chain
  have hch : ∀ a, a < m → chunk (se.drop (8 * a)) = chunk (d.drop (8 * (n + 1 + a))) := by
    intro a ha
    have h1 : (se.drop (8 * a)).take 8 = (d.drop (8 * (n + 1 + a))).take 8 := by
      have hx : ((se.take (8 * m)).drop (8 * a)).take 8 = (((d.drop (8 * (n + 1))).take (8 * m)).drop (8 * a)).take 8 := by
        rw [L.pre]
      rw [List.drop_take, List.drop_take, List.take_take, List.take_take, List.drop_drop] at hx
      have e1 : min 8 (8 * m - 8 * a) = 8 := by omega
      rw [e1] at hx
      rw [hx]; congr 2; omega
    rw [← Verif.Spec.chunk_take (se.drop (8 * a)) (by rw [List.length_drop]; omega), h1,
      Verif.Spec.chunk_take _ (by rw [List.length_drop]; omega)]
  -- the body of the leaf
  let nb : Leaf V := { b with ksuf := upd b.ksuf (get 5 b.perm j) none, klx := upd b.klx (get 5 b.perm j) layerKeylenx,
                              cell := upd b.cell (get 5 b.perm j) (.layer t.fresh) }
  let e' : Ent V := ⟨k.ikey, 128, .layer t.fresh, none⟩
  have hsame : ∀ s, s ≠ get 5 b.perm j → entAt nb s = entAt b s := by
    intro s hs
    simp only [entAt, nb, Leaf.suf, updN hs]
  have he : entAt nb (get 5 b.perm j) = e' := by
    have : b.ikey (get 5 b.perm j) = k.ikey := hi
    simp only [entAt, nb, Leaf.suf, updS, e', layerKeylenx, this, ksufKeylenx]
    rfl
  have hn : nb.n = b.n := rfl
  have hent : ∀ j', j' < b.n → nb.ent j' = if j' = j then e' else b.ent j' := by
    intro j' hj'; rw [set_ent (b := b) (nb := nb) hbd.perm hj rfl hsame j' hj', he]
  have hik : ∀ j', j' < b.n → (nb.ent j').ikey = (b.ent j').ikey := by
    intro j' hj'
    rw [hent j' hj']
    split
    · rename_i c; subst c; exact hi.symm
    · rfl
  -- the tree with the new leaves
  have hI1 : Inv t1 G' G' (fun x => x = l) := by
    refine hT.addLeaves (lay := fun x => ⟨d.take (8 * (n + 1 + (x - t.fresh))), x⟩) A (fun y hy => ?_) hold ?_ hnoneG ?_ ?_ ?_
    · change t.fresh ≤ y at hy; omega
    · intro x h1 h2; exact layG_new h1 h2
    · intro x h1 h2
      change t.fresh ≤ x at h1
      show (d.take (8 * (n + 1 + (x - t.fresh)))).length % 8 = 0
      rw [hlenp _ (by omega)]; omega
    · intro x h1 h2
      change t.fresh ≤ x at h1
      obtain ⟨a, rfl⟩ : ∃ a, x = t.fresh + a := ⟨x - t.fresh, by omega⟩
      by_cases c : a < m
      · rw [hlb a c]; exact linkBody_ok _ _
      · have : a = m := by omega
        subst this; exact k7
    · intro x h1 h2
      change t.fresh ≤ x at h1
      obtain ⟨a, rfl⟩ : ∃ a, x = t.fresh + a := ⟨x - t.fresh, by omega⟩
      show LayerOK G' (d.take (8 * (n + 1 + (t.fresh + a - t.fresh)))) _
      rw [show t.fresh + a - t.fresh = a by omega]
      by_cases c : a < m
      · rw [hlb a c]
        intro j' hj' q hq
        rw [linkBody_n] at hj'
        have : j' = 0 := by omega
        subst this
        rw [linkBody_ent] at hq ⊢
        cases hq
        refine ⟨_, (d.drop (8 * (n + 1 + a))).take 8, hnewG (a + 1) (by omega), ?_, ?_, ?_⟩
        · show d.take (8 * (n + 1 + (a + 1))) = _
          rw [← List.take_add]; congr 1
        · rw [List.length_take, List.length_drop]; omega
        · show chunk _ = chunk (se.drop (8 * a))
          rw [hch a c, Verif.Spec.chunk_take _ (by rw [List.length_drop]; omega)]
      · have : a = m := by omega
        subst this
        intro j' hj' q hq
        rw [k4] at hj'
        have : j' = 0 ∨ j' = 1 := by omega
        rcases this with rfl | rfl
        · rw [k5] at hq
          rcases k3 with ⟨g1, g2⟩ | ⟨g1, g2⟩ <;> rw [g1] at hq <;> cases hq
        · rw [k6] at hq
          rcases k3 with ⟨g1, g2⟩ | ⟨g1, g2⟩ <;> rw [g2] at hq <;> cases hq
  have hl' : G' l = some i := by rw [hold l hll]; exact hl
  have hkl' : t1.kind l = some .leaf := by rw [A.kind l hll]; exact hkl
  have hb1 : t1.body l = b := by rw [A.body l hll]; rfl
  have hok : EntOK e' := .layer rfl t.fresh rfl
  have hinv := hI1.setBody (lk' := fun _ => False) hl' hkl' nb
    (bodyOK_set hbd hj rfl hsame e' he hok hi.symm (by rw [hkx]; rfl))
    (by
      intro j' hj' q hq
      rw [hent j' hj'] at hq ⊢
      by_cases c : j' = j
      · rw [if_pos c] at hq ⊢
        cases hq
        refine ⟨_, (d.drop (8 * n)).take 8, hnewG 0 (by omega), ?_, ?_, ?_⟩
        · show d.take (8 * (n + 1 + 0)) = _
          rw [hp, ← List.take_add]; congr 1
        · rw [List.length_take, List.length_drop]; omega
        · show chunk _ = k.ikey
          rw [Verif.Spec.chunk_take _ (by rw [List.length_drop]; omega), hk.ikey_eq]
      · rw [if_neg c] at hq ⊢
        exact ((h.layer l i hkl hl).mono (fun q iq hq => ⟨iq, by rw [hold q (h.lt hq)]; exact hq, rfl⟩)) j' hj' q hq)
    (by
      intro hpv
      rw [A.prev l hll] at hpv
      exact (h.link l i hkl hl).slot0 hpv)
    (by
      rw [hb1]
      rintro (c | ⟨j', c1, c2⟩)
      · exact Or.inl c
      · exact Or.inr ⟨j', c1, by rw [c2, hik j' c1]⟩)
    (upd t1.locked l false) (relock_false hI1) (t.count + 1)
  -- entries
  have hHX : ∀ p e, HasX t1 G' l p e ↔ HasX t G l p e ∨ NewE t.fresh se d (n + 1) m e0 e1 p e := by
    intro p e
    constructor
    · rintro ⟨x, ix, a, g0, g1, g2, g3, g4, g5⟩
      by_cases c : x < t.fresh
      · rw [hold x c] at g1
        rw [A.kind x c] at g2
        rw [A.body x c] at g4 g5
        exact Or.inl ⟨x, ix, a, g0, g1, g2, g3, g4, g5⟩
      · right
        have hx1 : x < t1.fresh := hI1.lt g1
        obtain ⟨y, rfl⟩ : ∃ y, x = t.fresh + y := ⟨x - t.fresh, by omega⟩
        rw [hnewG y (by omega)] at g1
        have g1 := Option.some.inj g1
        subst g1
        by_cases cy : y < m
        · left
          rw [hlb y cy, linkBody_n] at g4
          have : a = 0 := by omega
          subst this
          rw [hlb y cy, linkBody_ent] at g5
          exact ⟨y, cy, g3.symm, g5.symm⟩
        · right
          have : y = m := by omega
          subst this
          refine ⟨g3.symm, ?_⟩
          rw [k4] at g4
          have : a = 0 ∨ a = 1 := by omega
          rcases this with rfl | rfl
          · left; rw [← g5, k5]
          · right; rw [← g5, k6]
    · rintro (⟨x, ix, a, g0, g1, g2, g3, g4, g5⟩ | ⟨y, cy, g3, g5⟩ | ⟨g3, g5⟩)
      · have c : x < t.fresh := h.lt g1
        refine ⟨x, ix, a, g0, by rw [hold x c]; exact g1, by rw [A.kind x c]; exact g2, g3, ?_, ?_⟩
        · rw [A.body x c]; exact g4
        · rw [A.body x c]; exact g5
      · refine ⟨t.fresh + y, _, 0, by omega, hnewG y (by omega), A.kindN _ (by show t.fresh ≤ _; omega) (by omega), g3.symm, ?_, ?_⟩
        · rw [hlb y cy, linkBody_n]; omega
        · rw [hlb y cy, linkBody_ent, g5]
      · rcases g5 with rfl | rfl
        · exact ⟨t.fresh + m, _, 0, by omega, hnewG m (by omega), A.kindN _ (by show t.fresh ≤ _; omega) (by omega), g3.symm,
            by rw [k4]; omega, k5⟩
        · exact ⟨t.fresh + m, _, 1, by omega, hnewG m (by omega), A.kindN _ (by show t.fresh ≤ _; omega) (by omega), g3.symm,
            by rw [k4]; omega, k6⟩
  have hHE' : ∀ p e, HasE (putT t1 l nb (t.count + 1)) G' p e ↔
      HasX t1 G' l p e ∨ (i.pfx.bytes = p ∧ ∃ j, j < nb.n ∧ nb.ent j = e) := fun p e => hasE_set hl' hkl' nb _ (t.count + 1)
  have hHE : ∀ p e, HasE t G p e ↔ HasX t G l p e ∨ (i.pfx.bytes = p ∧ ∃ j, j < b.n ∧ b.ent j = e) :=
    fun p e => hasE_split hl hkl
  have back : ∀ p e, HasE (putT t1 l nb (t.count + 1)) G' p e →
      HasE t G p e ∨ (i.pfx.bytes = p ∧ e = e') ∨ NewE t.fresh se d (n + 1) m e0 e1 p e := by
    intro p e he
    rcases (hHE' p e).1 he with c | ⟨c1, j', c2, c3⟩
    · rcases (hHX p e).1 c with c | c
      · exact Or.inl ((hHE p e).2 (Or.inl c))
      · exact Or.inr (Or.inr c)
    · rw [hent j' c2] at c3
      split at c3
      · exact Or.inr (Or.inl ⟨c1, c3.symm⟩)
      · exact Or.inl ((hHE p e).2 (Or.inr ⟨c1, j', c2, c3⟩))
  have forth : ∀ p e, HasE t G p e → HasE (putT t1 l nb (t.count + 1)) G' p e ∨ (i.pfx.bytes = p ∧ e = b.ent j) := by
    intro p e he
    rcases (hHE p e).1 he with c | ⟨c1, j', c2, c3⟩
    · exact Or.inl ((hHE' p e).2 (Or.inl ((hHX p e).2 (Or.inl c))))
    · by_cases cj : j' = j
      · subst cj; exact Or.inr ⟨c1, c3.symm⟩
      · exact Or.inl ((hHE' p e).2 (Or.inr ⟨c1, j', c2, by rw [hent j' c2, if_neg cj, c3]⟩))
  have hnewE : ∀ p e, NewE t.fresh se d (n + 1) m e0 e1 p e → HasE (putT t1 l nb (t.count + 1)) G' p e :=
    fun p e c => (hHE' p e).2 (Or.inl ((hHX p e).2 (Or.inr c)))
  have hadd : HasE (putT t1 l nb (t.count + 1)) G' i.pfx.bytes e' :=
    (hHE' _ _).2 (Or.inr ⟨rfl, j, hj, by rw [hent j hj, if_pos rfl]⟩)
  have hrem : HasE t G i.pfx.bytes (b.ent j) := (hHE _ _).2 (Or.inr ⟨rfl, j, hj, rfl⟩)
  -- the two keys
  have hpre : d.take (8 * (n + 1)) ++ se.take (8 * m) = d.take (8 * (n + 1 + m)) := by
    rw [L.pre, ← List.take_add]; congr 1; omega
  have hek0 : EntKey i.pfx.bytes (b.ent j) (d.take (8 * (n + 1)) ++ se) := by
    refine ⟨(d.drop (8 * n)).take 8 ++ se, ?_, ?_, Or.inr ⟨hkx, ?_, ?_⟩⟩
    · rw [hp, ← List.append_assoc, ← List.take_add]; congr 2
    · show _ = ((t.body l).ent j).ikey
      rw [hi, hk.ikey_eq]
      have h8 : ((d.drop (8 * n)).take 8).length = 8 := by rw [List.length_take, List.length_drop]; omega
      rw [← Verif.Spec.chunk_take _ (by rw [List.length_append, h8]; omega),
        List.take_append_of_le_length (by omega), List.take_take, Nat.min_self,
        Verif.Spec.chunk_take _ (by rw [List.length_drop]; omega)]
    · rw [List.length_append, List.length_take, List.length_drop]; omega
    · show ((t.body l).ent j).suf = _
      have h8 : ((d.drop (8 * n)).take 8).length = 8 := by rw [List.length_take, List.length_drop]; omega
      rw [hsf, List.drop_append_of_le_length (by omega), List.drop_of_length_le (by omega), List.nil_append]
  have hek1 : EntKey (d.take (8 * (n + 1 + m))) (newEnt ek ev) (d.take (8 * (n + 1)) ++ se) := by
    rw [← hpre]; exact newEnt_entKey k1 (by omega) _ ev
  have hek2 : EntKey (d.take (8 * (n + 1 + m))) (newEnt nk v) d := newEnt_entKey k2 (by omega) [] v
  have hin1 : HasE (putT t1 l nb (t.count + 1)) G' (d.take (8 * (n + 1 + m))) (newEnt ek ev) := by
    refine hnewE _ _ (Or.inr ⟨rfl, ?_⟩)
    rcases k3 with ⟨g1, g2⟩ | ⟨g1, g2⟩
    · exact Or.inl g1.symm
    · exact Or.inr g2.symm
  have hin2 : HasE (putT t1 l nb (t.count + 1)) G' (d.take (8 * (n + 1 + m))) (newEnt nk v) := by
    refine hnewE _ _ (Or.inr ⟨rfl, ?_⟩)
    rcases k3 with ⟨g1, g2⟩ | ⟨g1, g2⟩
    · exact Or.inr g2.symm
    · exact Or.inl g1.symm
  have hnewcases : ∀ p e, NewE t.fresh se d (n + 1) m e0 e1 p e →
      (∃ a, a < m ∧ p = d.take (8 * (n + 1 + a)) ∧ e = ⟨chunk (d.drop (8 * (n + 1 + a))), 128, .layer (t.fresh + a + 1), none⟩) ∨
      (p = d.take (8 * (n + 1 + m)) ∧ (e = newEnt ek ev ∨ e = newEnt nk v)) := by
    rintro p e (⟨a, g1, g2, g3⟩ | ⟨g1, g2⟩)
    · rw [hch a g1] at g3; exact Or.inl ⟨a, g1, g2, g3⟩
    · refine Or.inr ⟨g1, ?_⟩
      rcases k3 with ⟨g3, g4⟩ | ⟨g3, g4⟩ <;> rw [g3, g4] at g2
      · exact g2
      · exact g2.symm
  refine ⟨hinv, ?_, ?_, ?_, ?_, has_iff.2 ⟨_, _, hin2, rfl, hek2⟩, ?_, rfl, ?_, ?_, ?_, ?_,
    by show t.fresh ≤ t1.fresh; omega, A.kind, fun x i b => ⟨i, (hold x (h.lt b)).trans b, rfl, rfl, fun _ => id⟩, ?_, ?_, ?_⟩
  · intro x y ix iy hx hy px py e
    change t1.parent x = none at px
    change t1.parent y = none at py
    change G' x = some ix at hx
    change G' y = some iy at hy
    have hx1 : x < t1.fresh := hI1.lt hx
    have hy1 : y < t1.fresh := hI1.lt hy
    by_cases cx : x < t.fresh
    · rw [hold x cx] at hx
      have := idb x ix hx
      by_cases cy : y < t.fresh
      · rw [hold y cy] at hy
        rw [A.parent x cx] at px
        rw [A.parent y cy] at py
        exact ru x y ix iy hx hy px py e
      · obtain ⟨a, rfl⟩ : ∃ a, y = t.fresh + a := ⟨y - t.fresh, by omega⟩
        rw [hnewG a (by omega)] at hy
        have hy := Option.some.inj hy
        subst hy
        rw [e] at this
        dsimp only at this; omega
    · obtain ⟨a, rfl⟩ : ∃ a, x = t.fresh + a := ⟨x - t.fresh, by omega⟩
      rw [hnewG a (by omega)] at hx
      have hx := Option.some.inj hx
      subst hx
      by_cases cy : y < t.fresh
      · rw [hold y cy] at hy
        have := idb y iy hy
        rw [← e] at this
        dsimp only at this; omega
      · obtain ⟨a', rfl⟩ : ∃ a, y = t.fresh + a := ⟨y - t.fresh, by omega⟩
        rw [hnewG a' (by omega)] at hy
        have hy := Option.some.inj hy
        subst hy
        exact congrArg Layer.id e
  · intro x ix hx
    change G' x = some ix at hx
    show ix.pfx.id < t1.fresh
    have hx1 : x < t1.fresh := hI1.lt hx
    by_cases cx : x < t.fresh
    · rw [hold x cx] at hx
      have := idb x ix hx; omega
    · obtain ⟨a, rfl⟩ : ∃ a, x = t.fresh + a := ⟨x - t.fresh, by omega⟩
      rw [hnewG a (by omega)] at hx
      have hx := Option.some.inj hx
      subst hx
      exact hx1
  · intro d' v' hv
    obtain ⟨p, e, h1, h2, h3⟩ := has_iff.1 hv
    rcases back p e h1 with c | ⟨c1, c2⟩ | c
    · exact Or.inl (has_iff.2 ⟨p, e, c, h2, h3⟩)
    · subst c2; cases h2
    · rcases hnewcases p e c with ⟨a, g1, g2, g3⟩ | ⟨g1, g3 | g3⟩
      · subst g3; cases h2
      · subst g3; subst g1
        cases h2
        left
        rw [entKey_unique h3 hek1]
        exact has_iff.2 ⟨_, _, hrem, hc, hek0⟩
      · subst g3; subst g1
        cases h2
        exact Or.inr ⟨entKey_unique h3 hek2, rfl⟩
  · intro d' v' hd hv
    obtain ⟨p, e, h1, h2, h3⟩ := has_iff.1 hv
    rcases forth p e h1 with c | ⟨c1, c2⟩
    · exact has_iff.2 ⟨p, e, c, h2, h3⟩
    · subst c2; subst c1
      have hvv : ev = v' := by
        have : ((t.body l).ent j).cell = .val v' := h2
        rw [hc] at this; cases this; rfl
      rw [entKey_unique h3 hek0, ← hvv]
      exact has_iff.2 ⟨_, _, hin1, rfl, hek1⟩
  · intro o ho; cases ho
  · intro hK hKd S
    obtain ⟨d0, hK0, _, hd0⟩ := S.key _ _ hrem
    have hd0 := entKey_unique (hd0 (by show ((t.body l).ent j).klx ≠ 128; omega)) hek0
    subst hd0
    refine ⟨?_, ?_, ?_, ?_⟩
    · intro x ix hkx' hx
      change G' x = some ix at hx
      by_cases c : x = l
      · subst c
        have hix : ix = i := by rw [hl'] at hx; exact (Option.some.inj hx).symm
        subst hix
        show Strict (upd t1.body x nb x) ix
        rw [updS]
        have s := S.strict x ix hkl hl
        refine ⟨?_, ?_, s.ne⟩
        · intro a c h1 h2
          rw [hik a (Nat.lt_trans h1 h2), hik c h2]; exact s.lt a c h1 h2
        · intro a h1; rw [hik a h1]; exact s.hi a h1
      · show Strict (upd t1.body l nb x) ix
        rw [updN c]
        by_cases cx : x < t.fresh
        · rw [hold x cx] at hx
          change t1.kind x = _ at hkx'
          rw [A.kind x cx] at hkx'
          rw [A.body x cx]
          exact S.strict x ix hkx' hx
        · have hx1 : x < t1.fresh := hI1.lt hx
          obtain ⟨a, rfl⟩ : ∃ a, x = t.fresh + a := ⟨x - t.fresh, by omega⟩
          rw [hnewG a (by omega)] at hx
          have hx := Option.some.inj hx
          subst hx
          refine ⟨?_, fun _ _ => by simp, by simp⟩
          by_cases ca : a < m
          · rw [hlb a ca]
            intro a' c' h1 h2
            rw [linkBody_n] at h2; omega
          · have : a = m := by omega
            subst this
            intro a' c' h1 h2
            rw [k4] at h2
            have e1' : a' = 0 := by omega
            have e2' : c' = 1 := by omega
            subst e1'; subst e2'
            have hle := k7.sorted 0 1 (by omega) (by omega)
            have hdis := k7.dist 0 1 (by omega) (by omega)
            rcases Nat.lt_or_eq_of_le hle with h | h
            · exact h
            · exfalso
              apply hdis h
              rw [k5, k6] at h ⊢
              have hcl : kcls ek = kcls nk := by
                have hik2 : ek.ikey = nk.ikey := by
                  rcases k3 with ⟨g3, g4⟩ | ⟨g3, g4⟩ <;> rw [g3, g4] at h
                  · exact h
                  · exact h.symm
                have hdr : (d.take (8 * (n + 1)) ++ se).drop (8 * (n + 1 + a)) = se.drop (8 * a) := by
                  have hl8 : (d.take (8 * (n + 1))).length = 8 * (n + 1) := by rw [List.length_take]; omega
                  rw [List.drop_append, hl8, List.drop_of_length_le (by omega), List.nil_append]
                  congr 1; omega
                have htk : (d.take (8 * (n + 1)) ++ se).take (8 * (n + 1 + a)) = d.take (8 * (n + 1 + a)) := by
                  have hl8 : (d.take (8 * (n + 1))).length = 8 * (n + 1) := by rw [List.length_take]; omega
                  rw [List.take_append, hl8, ← hpre, List.take_of_length_le (by omega)]
                  congr 2; omega
                have := hK.cls hK0 hKd (n := n + 1 + a) (by rw [List.length_append, List.length_take]; omega) (by omega) htk (by
                  rw [hdr, ← k1.ikey_eq, ← k2.ikey_eq]; exact hik2)
                rw [hdr, ← kcls_at k1, ← kcls_at k2] at this
                exact this
              rcases k3 with ⟨g3, g4⟩ | ⟨g3, g4⟩ <;> rw [g3, g4, newEnt_cls, newEnt_cls]
              · exact hcl
              · exact hcl.symm
    · intro p e he
      rcases back p e he with c | ⟨c1, c2⟩ | c
      · exact S.key p e c
      · subst c2; subst c1
        refine ⟨d, hKd, ?_, fun c => absurd rfl c⟩
        have hlp : i.pfx.bytes.length = 8 * n := by rw [hp, List.length_take]; omega
        refine ⟨by omega, by rw [hlp, hp], by rw [hlp]; exact hk.ikey_eq.symm, ?_⟩
        rw [hlp]
        show lenClass _ = 9
        unfold lenClass
        rw [List.length_drop]; omega
      · rcases hnewcases p e c with ⟨a, g1, g2, g3⟩ | ⟨g1, g3 | g3⟩
        · subst g3; subst g2
          refine ⟨d, hKd, ?_, fun c => absurd rfl c⟩
          refine ⟨by rw [hlenp a (by omega)]; omega, by rw [hlenp a (by omega)], by rw [hlenp a (by omega)], ?_⟩
          rw [hlenp a (by omega)]
          show lenClass _ = 9
          unfold lenClass
          rw [List.length_drop]; omega
        · subst g3; subst g1
          exact ⟨_, hK0, hek1.path, fun _ => hek1⟩
        · subst g3; subst g1
          exact ⟨_, hKd, hek2.path, fun _ => hek2⟩
    · -- no older layer has these bytes
      have hno : ∀ x ix, G x = some ix → ∀ a, a ≤ m → ix.pfx.bytes ≠ d.take (8 * (n + 1 + a)) := by
        intro x ix hx a ha e
        obtain ⟨e2, q, a1, a2, a3, a4⟩ := S.path (d := d) (n + 1 + a) (by omega) ⟨x, ix, hx, e⟩ n (by omega)
        have : b.ent j = e2 := S.ent_unique h ru hrem (by rw [hp]; exact a1) (by
          show ((t.body l).ent j).ikey = _
          rw [a4, hi, hk.ikey_eq])
        rw [← this] at a2
        have : ((t.body l).ent j).klx = 128 := a2
        omega
      intro x y ix iy hx hy e
      change G' x = some ix at hx
      change G' y = some iy at hy
      have hx1 : x < t1.fresh := hI1.lt hx
      have hy1 : y < t1.fresh := hI1.lt hy
      by_cases cx : x < t.fresh
      · rw [hold x cx] at hx
        by_cases cy : y < t.fresh
        · rw [hold y cy] at hy
          exact S.bu x y ix iy hx hy e
        · exfalso
          obtain ⟨a, rfl⟩ : ∃ a, y = t.fresh + a := ⟨y - t.fresh, by omega⟩
          rw [hnewG a (by omega)] at hy
          have hy := Option.some.inj hy
          subst hy
          exact hno x ix hx a (by omega) e
      · obtain ⟨a, rfl⟩ : ∃ a, x = t.fresh + a := ⟨x - t.fresh, by omega⟩
        rw [hnewG a (by omega)] at hx
        have hx := Option.some.inj hx
        subst hx
        by_cases cy : y < t.fresh
        · exfalso
          rw [hold y cy] at hy
          exact hno y iy hy a (by omega) e.symm
        · obtain ⟨a', rfl⟩ : ∃ a, y = t.fresh + a := ⟨y - t.fresh, by omega⟩
          rw [hnewG a' (by omega)] at hy
          have hy := Option.some.inj hy
          subst hy
          have hl := congrArg List.length e
          dsimp only at hl
          rw [hlenp a (by omega), hlenp a' (by omega)] at hl
          have : a = a' := by omega
          subst this; rfl
    · intro x ix hx hne'
      change G' x = some ix at hx
      have hx1 : x < t1.fresh := hI1.lt hx
      by_cases cx : x < t.fresh
      · rw [hold x cx] at hx
        obtain ⟨p, c, e, q, o1, o2, o3, o4, o5, o6⟩ := S.owner x ix hx hne'
        refine ⟨p, c, e, q, o1, o2, ?_, o4, o5, o6⟩
        rcases forth p e o3 with c | ⟨c1, c2⟩
        · exact c
        · subst c2
          have : ((t.body l).ent j).klx = 128 := o4
          omega
      · obtain ⟨a, rfl⟩ : ∃ a, x = t.fresh + a := ⟨x - t.fresh, by omega⟩
        rw [hnewG a (by omega)] at hx
        have hx := Option.some.inj hx
        subst hx
        cases a with
        | zero =>
          refine ⟨i.pfx.bytes, (d.drop (8 * n)).take 8, e', t.fresh, ?_, ?_, hadd, rfl, rfl, ?_⟩
          · show d.take (8 * (n + 1 + 0)) = _
            rw [hp, ← List.take_add]; congr 1
          · rw [List.length_take, List.length_drop]; omega
          · show k.ikey = _
            rw [Verif.Spec.chunk_take _ (by rw [List.length_drop]; omega), hk.ikey_eq]
        | succ a =>
          refine ⟨d.take (8 * (n + 1 + a)), (d.drop (8 * (n + 1 + a))).take 8, _, t.fresh + a + 1, ?_, ?_,
            hnewE _ ⟨chunk (se.drop (8 * a)), 128, .layer (t.fresh + a + 1), none⟩ (Or.inl ⟨a, by omega, rfl, rfl⟩), rfl, rfl, ?_⟩
          · show d.take (8 * (n + 1 + (a + 1))) = _
            rw [← List.take_add]; congr 1
          · rw [List.length_take, List.length_drop]; omega
          · show chunk (se.drop (8 * a)) = _
            rw [hch a (by omega), Verif.Spec.chunk_take _ (by rw [List.length_drop]; omega)]
  · intro hK hKd S _ v' hv
    obtain ⟨e, e1, e2, _⟩ := S.path_entry hK h ru hv (by omega) ⟨l, i, hl, hp⟩ hk
    have : b.ent j = e := S.ent_unique h ru hrem (by rw [hp]; exact e1) (by rw [e2.1]; exact hi)
    subst this
    rcases e2.2 with ⟨_, g⟩ | ⟨g, _⟩
    · have := g hkx
      have hsf' : (b.ent j).suf = some se := hsf
      rw [hsf'] at this
      exact hne (Option.some.inj this)
    · have : ((t.body l).ent j).klx = 128 := g
      omega
  · rintro p ⟨e, he⟩
    rcases forth p e he with c | ⟨c1, c2⟩
    · exact ⟨e, c⟩
    · subst c1; exact ⟨e', hadd⟩
  · intro r0 x y ix iy hx hy ex ey
    change G' x = some ix at hx
    change G' y = some iy at hy
    have old : ∀ z iz, G' z = some iz → iz.pfx.bytes = [] → G z = some iz := by
      intro z iz hz ez
      have hz1 : z < t1.fresh := hI1.lt hz
      by_cases cz : z < t.fresh
      · rw [hold z cz] at hz; exact hz
      · exfalso
        obtain ⟨a, rfl⟩ : ∃ a, z = t.fresh + a := ⟨z - t.fresh, by omega⟩
        rw [hnewG a (by omega)] at hz
        have hz := Option.some.inj hz
        subst hz
        have := hlenp a (by omega)
        dsimp only at ez
        rw [ez, List.length_nil] at this
        omega
    exact r0 x y ix iy (old x ix hx ex) (old y iy hy ey) ex ey
  · intro hs x ix hkx' hx a ha
    have hx1 := h.lt hx
    have := hs x ix (by show t1.kind x = _; rw [A.kind x hx1]; exact hkx') (by show G' x = _; rw [hold x hx1]; exact hx)
    change ∀ j, j < (upd t1.body l nb x).n → ltHi ((upd t1.body l nb x).ent j).ikey ix.hi at this
    by_cases c : x = l
    · subst c
      rw [updS] at this
      have := this a ha
      rwa [hik a ha] at this
    · rw [updN c, A.body x hx1] at this
      exact this a ha
  · intro hs S
    refine ⟨hs, ?_, ?_, ?_, ?_⟩
    · intro x ix hkx' hx
      change G' x = some ix at hx
      by_cases cx : x < t.fresh
      · rw [hold x cx] at hx
        change t1.kind x = _ at hkx'
        rw [A.kind x cx] at hkx'
        exact S.ne x ix hkx' hx
      · have hx1 : x < t1.fresh := hI1.lt hx
        obtain ⟨a, rfl⟩ : ∃ a, x = t.fresh + a := ⟨x - t.fresh, by omega⟩
        rw [hnewG a (by omega)] at hx
        have hx := Option.some.inj hx
        subst hx
        simp
    · intro p e he hp'
      rcases back p e he with c | ⟨c1, c2⟩ | c
      · exact S.nz p e c hp'
      · subst c2; simp [e']
      · rcases hnewcases p e c with ⟨a, g1, g2, g3⟩ | ⟨g1, g3 | g3⟩
        · subst g3; simp
        · subst g3; exact newEnt_klx k1 hl1 ev
        · subst g3; exact newEnt_klx k2 (by omega) v
    · -- no older layer has these bytes
      have hno : ∀ x ix, G x = some ix → ∀ a, a ≤ m → ix.pfx.bytes ≠ d.take (8 * (n + 1 + a)) := by
        intro x ix hx a ha e
        obtain ⟨e2, q, a1, a2, a3, a4⟩ := S.path (d := d) (n + 1 + a) (by omega) ⟨x, ix, hx, e⟩ n (by omega)
        have : b.ent j = e2 := S.ent_unique h ru hrem (by rw [hp]; exact a1) (by
          show ((t.body l).ent j).ikey = _
          rw [a4, hi, hk.ikey_eq]) (by
          show cls ((t.body l).ent j).klx = _
          rw [a2, hkx]; rfl)
        rw [← this] at a2
        have : ((t.body l).ent j).klx = 128 := a2
        omega
      intro x y ix iy hx hy e
      change G' x = some ix at hx
      change G' y = some iy at hy
      have hx1 : x < t1.fresh := hI1.lt hx
      have hy1 : y < t1.fresh := hI1.lt hy
      by_cases cx : x < t.fresh
      · rw [hold x cx] at hx
        by_cases cy : y < t.fresh
        · rw [hold y cy] at hy
          exact S.bu x y ix iy hx hy e
        · exfalso
          obtain ⟨a, rfl⟩ : ∃ a, y = t.fresh + a := ⟨y - t.fresh, by omega⟩
          rw [hnewG a (by omega)] at hy
          have hy := Option.some.inj hy
          subst hy
          exact hno x ix hx a (by omega) e
      · obtain ⟨a, rfl⟩ : ∃ a, x = t.fresh + a := ⟨x - t.fresh, by omega⟩
        rw [hnewG a (by omega)] at hx
        have hx := Option.some.inj hx
        subst hx
        by_cases cy : y < t.fresh
        · exfalso
          rw [hold y cy] at hy
          exact hno y iy hy a (by omega) e.symm
        · obtain ⟨a', rfl⟩ : ∃ a, y = t.fresh + a := ⟨y - t.fresh, by omega⟩
          rw [hnewG a' (by omega)] at hy
          have hy := Option.some.inj hy
          subst hy
          have hl := congrArg List.length e
          dsimp only at hl
          rw [hlenp a (by omega), hlenp a' (by omega)] at hl
          have : a = a' := by omega
          subst this; rfl
    · intro x ix hx hne'
      change G' x = some ix at hx
      have hx1 : x < t1.fresh := hI1.lt hx
      by_cases cx : x < t.fresh
      · rw [hold x cx] at hx
        obtain ⟨p, c, e, q, o1, o2, o3, o4, o5, o6⟩ := S.owner x ix hx hne'
        refine ⟨p, c, e, q, o1, o2, ?_, o4, o5, o6⟩
        rcases forth p e o3 with c | ⟨c1, c2⟩
        · exact c
        · subst c2
          have : ((t.body l).ent j).klx = 128 := o4
          omega
      · obtain ⟨a, rfl⟩ : ∃ a, x = t.fresh + a := ⟨x - t.fresh, by omega⟩
        rw [hnewG a (by omega)] at hx
        have hx := Option.some.inj hx
        subst hx
        cases a with
        | zero =>
          refine ⟨i.pfx.bytes, (d.drop (8 * n)).take 8, e', t.fresh, ?_, ?_, hadd, rfl, rfl, ?_⟩
          · show d.take (8 * (n + 1 + 0)) = _
            rw [hp, ← List.take_add]; congr 1
          · rw [List.length_take, List.length_drop]; omega
          · show k.ikey = _
            rw [Verif.Spec.chunk_take _ (by rw [List.length_drop]; omega), hk.ikey_eq]
        | succ a =>
          refine ⟨d.take (8 * (n + 1 + a)), (d.drop (8 * (n + 1 + a))).take 8, _, t.fresh + a + 1, ?_, ?_,
            hnewE _ ⟨chunk (se.drop (8 * a)), 128, .layer (t.fresh + a + 1), none⟩ (Or.inl ⟨a, by omega, rfl, rfl⟩), rfl, rfl, ?_⟩
          · show d.take (8 * (n + 1 + (a + 1))) = _
            rw [← List.take_add]; congr 1
          · rw [List.length_take, List.length_drop]; omega
          · show chunk (se.drop (8 * a)) = _
            rw [hch a (by omega), Verif.Spec.chunk_take _ (by rw [List.length_drop]; omega)]
  · intro _ S _ v' hv
    obtain ⟨e, e1, e2, _⟩ := S.path_entry h ru hv (by omega) ⟨l, i, hl, hp⟩ hk
    have hcl : cls (b.ent j).klx = cls e.klx := by
      have : cls ((t.body l).ent j).klx = 9 := by rw [hkx]; rfl
      rw [matches_cls e2]
      show cls ((t.body l).ent j).klx = _
      rw [this]; unfold kcls; rw [hs]; rfl
    have : b.ent j = e := S.ent_unique h ru hrem (by rw [hp]; exact e1) (by rw [e2.1]; exact hi) hcl
    subst this
    rcases e2.2 with ⟨_, g⟩ | ⟨g, _⟩
    · have := g hkx
      have hsf' : (b.ent j).suf = some se := hsf
      rw [hsf'] at this
      exact hne (Option.some.inj this)
    · have : ((t.body l).ent j).klx = 128 := g
      omega

end Verif.Tree
