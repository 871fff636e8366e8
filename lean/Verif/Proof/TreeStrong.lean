import Verif.Proof.TreeLayer
import Verif.Spec.Map
import Mathlib.Tactic.ByContra
set_option linter.unusedSimpArgs false
set_option linter.unusedVariables false
/-!
# Histories without clashing chunks: the stronger invariant and exact lookups
-/
namespace Verif.Tree
open Verif.Spec (Bytes chunk lenClass NoClash)
open Verif.Internode (Arr upd)
open Verif.Perm (size get back backAtOffset insertFromBack swapFreeSlots setSize makeSorted24 params24)
variable {V : Type}
variable {t : Tree V} {G : Ghost} {lk : Nat → Prop}

theorem _root_.Verif.Spec.NoClash.cls {K : Bytes → Prop} (h : NoClash K) {a b : Bytes} (ha : K a) (hb : K b) {n : Nat} (h1 : 8 * n ≤ a.length)
    (h2 : 8 * n ≤ b.length) (h3 : a.take (8 * n) = b.take (8 * n)) (h4 : chunk (a.drop (8 * n)) = chunk (b.drop (8 * n))) :
    lenClass (a.drop (8 * n)) = lenClass (b.drop (8 * n)) := by
  by_contra c
  exact h a b ha hb ⟨n, h1, h2, h3, h4, c⟩

/-- The entry `e` of the layer `p` lies on the path of the key `k`. -/
structure EntPath (p : Bytes) (e : Ent V) (k : Bytes) : Prop where
  le : p.length ≤ k.length
  pre : p = k.take p.length
  ikey : chunk (k.drop p.length) = e.ikey
  cls : lenClass (k.drop p.length) = cls e.klx

theorem EntKey.path {p : Bytes} {e : Ent V} {k : Bytes} (h : EntKey p e k) : EntPath p e k := by
  obtain ⟨r, h1, h2, h3⟩ := h
  subst h1
  refine ⟨by simp, by simp, by simpa using h2, ?_⟩
  simp only [List.drop_left, lenClass, Verif.Tree.cls]
  rcases h3 with ⟨a, b⟩ | ⟨a, b, _⟩
  · rw [if_pos (by omega)]; omega
  · rw [if_neg (by omega)]; omega

theorem entKey_unique {p : Bytes} {e : Ent V} {d d' : Bytes} (h : EntKey p e d) (h' : EntKey p e d') : d = d' := by
  obtain ⟨r, h1, h2, h3⟩ := h
  obtain ⟨r', h1', h2', h3'⟩ := h'
  subst h1 h1'
  congr 1
  rcases h3 with ⟨a, b⟩ | ⟨a, b, c⟩ <;> rcases h3' with ⟨a', b'⟩ | ⟨a', b', c'⟩
  · exact Verif.Spec.eq_of_chunk_eq_short _ _ b (by omega) (by rw [h2, h2'])
  · omega
  · omega
  · refine Verif.Spec.eq_of_chunk_eq_long _ _ b b' (by rw [h2, h2']) ?_
    rw [c] at c'; exact Option.some.inj c'

/-- What holds in addition when all inserted keys belong to a set `K` without clashes. -/
structure Strong (K : Bytes → Prop) (t : Tree V) (G : Ghost) : Prop where
  strict : AllStrict t G
  key : ∀ p e, HasE t G p e → ∃ k, K k ∧ EntPath p e k ∧ (e.klx ≠ 128 → EntKey p e k)
  bu : ∀ x y ix iy, G x = some ix → G y = some iy → ix.pfx.bytes = iy.pfx.bytes → ix.pfx = iy.pfx
  owner : ∀ x ix, G x = some ix → ix.pfx.bytes ≠ [] → ∃ p c e q, ix.pfx.bytes = p ++ c ∧ c.length = 8 ∧ HasE t G p e ∧
    e.klx = 128 ∧ e.cell = .layer q ∧ e.ikey = chunk c

theorem Strong.ent_unique {K : Bytes → Prop} (S : Strong K t G) (h : Inv t G G lk) (ru : RU t G) {p : Bytes} {e e' : Ent V}
    (h1 : HasE t G p e) (h2 : HasE t G p e') (hi : e.ikey = e'.ikey) : e = e' := by
  obtain ⟨x, ix, j, a1, a2, a3, a4, a5⟩ := h1
  obtain ⟨y, iy, j', b1, b2, b3, b4, b5⟩ := h2
  have hl := S.bu x y ix iy a1 b1 (by rw [a3, b3])
  have sx := S.strict x ix a2 a1
  have sy := S.strict y iy b2 b1
  have hxy : x = y := by
    refine leaf_unique h ru (ik := e.ikey) a1 b1 a2 b2 hl ?_ ?_ ?_ ?_
    · rw [← a5]; exact (h.body x ix a2 a1).lo j a4
    · rw [← a5]; exact sx.hi j a4
    · rw [hi, ← b5]; exact (h.body y iy b2 b1).lo j' b4
    · rw [hi, ← b5]; exact sy.hi j' b4
  subst hxy
  rw [← a5, ← b5]
  rw [← a5, ← b5] at hi
  rcases Nat.lt_trichotomy j j' with c | c | c
  · have := sx.lt j j' c b4; omega
  · rw [c]
  · have := sx.lt j' j c a4; omega

/-- Above an existing layer there is a layer pointer at every level. -/
theorem path_of_owner (owner : ∀ x ix, G x = some ix → ix.pfx.bytes ≠ [] → ∃ p c e q, ix.pfx.bytes = p ++ c ∧ c.length = 8 ∧
    HasE t G p e ∧ e.klx = 128 ∧ e.cell = .layer q ∧ e.ikey = chunk c) {d : Bytes} : ∀ n, 8 * n ≤ d.length →
    (∃ x ix, G x = some ix ∧ ix.pfx.bytes = d.take (8 * n)) → ∀ m, m < n →
    ∃ e q, HasE t G (d.take (8 * m)) e ∧ e.klx = 128 ∧ e.cell = .layer q ∧ e.ikey = chunk (d.drop (8 * m)) := by
  intro n
  induction n with
  | zero => intro _ _ m hm; omega
  | succ n ih =>
    rintro hl ⟨x, ix, h1, h2⟩ m hm
    have hlen : (d.take (8 * (n + 1))).length = 8 * n + 8 := by simp only [List.length_take]; omega
    obtain ⟨p, c, e, q, o1, o2, o3, o4, o5, o6⟩ := owner x ix h1 (by
      intro e; rw [h2] at e; rw [e] at hlen; simp at hlen)
    rw [h2] at o1
    have hp : p.length = 8 * n := by
      have := congrArg List.length o1
      rw [hlen, List.length_append] at this; omega
    have hp1 : p = d.take (8 * n) := by
      have := congrArg (List.take (8 * n)) o1
      rw [List.take_take, List.take_append_of_le_length (by omega), List.take_of_length_le (by omega : p.length ≤ 8 * n)] at this
      rw [← this]; congr 1; omega
    have hc1 : c = (d.drop (8 * n)).take 8 := by
      have := congrArg (List.drop (8 * n)) o1
      rw [List.drop_append_of_le_length (by omega), List.drop_of_length_le (by omega : p.length ≤ 8 * n), List.nil_append,
        List.drop_take] at this
      rw [← this]; congr 1; omega
    by_cases e1 : m = n
    · subst e1
      refine ⟨e, q, by rw [← hp1]; exact o3, o4, o5, ?_⟩
      rw [o6, hc1, Verif.Spec.chunk_take _ (by simp only [List.length_drop]; omega)]
    · obtain ⟨y, iy, j, g1, g2, g3, _⟩ := o3
      exact ih (by omega) ⟨y, iy, g1, by rw [g3, hp1]⟩ m (by omega)

theorem Strong.path {K : Bytes → Prop} (S : Strong K t G) {d : Bytes} : ∀ n, 8 * n ≤ d.length →
    (∃ x ix, G x = some ix ∧ ix.pfx.bytes = d.take (8 * n)) → ∀ m, m < n →
    ∃ e q, HasE t G (d.take (8 * m)) e ∧ e.klx = 128 ∧ e.cell = .layer q ∧ e.ikey = chunk (d.drop (8 * m)) :=
  path_of_owner S.owner

theorem HasE.len8 (h : Inv t G G lk) {p : Bytes} {e : Ent V} (he : HasE t G p e) : p.length % 8 = 0 := by
  obtain ⟨x, i, j, a1, a2, a3, _⟩ := he
  rw [← a3]; exact h.pfx8 x i a1

/-- If the key is held, then at every existing layer on its path there is an entry for it. -/
theorem Strong.path_entry {K : Bytes → Prop} (hK : NoClash K) (S : Strong K t G) (h : Inv t G G lk) (ru : RU t G) {d : Bytes} {v : V}
    (hv : Has t G d v) {n : Nat} (hn : 8 * n ≤ d.length) (hx : ∃ x ix, G x = some ix ∧ ix.pfx.bytes = d.take (8 * n))
    {k : Key} (hk : k.Sees d n) : ∃ e, HasE t G (d.take (8 * n)) e ∧ Matches e k ∧ (e.cell = .val v ∨ e.klx = 128) := by
  obtain ⟨p, e, he, hc, hek⟩ := has_iff.1 hv
  have h8 := HasE.len8 h he
  obtain ⟨n', hn'⟩ : ∃ n', p.length = 8 * n' := ⟨p.length / 8, by omega⟩
  have hpath := hek.path
  have hne : e.klx ≠ 128 := by
    obtain ⟨r, _, _, h3⟩ := hek
    omega
  have hp : p = d.take (8 * n') := by rw [← hn']; exact hpath.pre
  have hle := hpath.le
  rcases Nat.lt_trichotomy n' n with c | c | c
  · exfalso
    obtain ⟨e2, q, a1, a2, a3, a4⟩ := S.path n hn hx n' c
    have : e = e2 := S.ent_unique h ru he (by rw [hp]; exact a1) (by rw [a4, ← hpath.ikey, hn'])
    subst this
    exact hne a2
  · subst c
    have hm := matches_of_entKey hk hn' hek
    exact ⟨e, by rw [← hp]; exact he, hm.1, Or.inl hc⟩
  · obtain ⟨x, ix, j, b1, b2, b3, _⟩ := id he
    obtain ⟨e2, q, a1, a2, a3, a4⟩ := S.path (d := d) n' (by omega) ⟨x, ix, b1, by rw [b3, hp]⟩ n c
    refine ⟨e2, a1, ⟨by rw [a4, hk.ikey_eq], Or.inr ⟨a2, ?_⟩⟩, Or.inr a2⟩
    obtain ⟨k2, g1, g2, g3⟩ := S.key _ _ a1
    obtain ⟨d2, g4, g5, g6⟩ := S.key _ _ he
    have : d2 = d := entKey_unique (g6 hne) hek
    subst this
    have hlt : (d2.take (8 * n)).length = 8 * n := by simp only [List.length_take]; omega
    have hpre := g2.pre
    have hik := g2.ikey
    have hcl := g2.cls
    have hle2 := g2.le
    rw [hlt] at hpre hik hcl hle2
    have := hK.cls g4 g1 hn hle2 hpre (by rw [hik, a4])
    rw [hcl, a2] at this
    have : lenClass (d2.drop (8 * n)) = 9 := this
    rw [hk.hasSuffix]
    apply decide_eq_true
    unfold lenClass at this
    omega

theorem InR.strict {ik : Nat} {i : Info} (h : InR ik i) (hne : ltHi i.lo i.hi) : ltHi ik i.hi := by
  intro z hz
  have h1 := h.hi z hz
  by_cases e : ik = z
  · subst e
    have := h.eq hz
    have := hne ik hz
    omega
  · omega

/-- The entry for a chunk is in the leaf responsible for it. -/
theorem Strong.in_leaf {K : Bytes → Prop} (S : Strong K t G) (h : Inv t G G lk) (ru : RU t G) {p : Bytes} {e : Ent V}
    (he : HasE t G p e) {y : Nat} {iy : Info} (hy : G y = some iy) (hk : t.kind y = some .leaf) (hp : iy.pfx.bytes = p)
    (h1 : iy.lo ≤ e.ikey) (h2 : ltHi e.ikey iy.hi) : ∃ j, j < (t.body y).n ∧ (t.body y).ent j = e := by
  obtain ⟨x, ix, j, a1, a2, a3, a4, a5⟩ := he
  have hl := S.bu x y ix iy a1 hy (by rw [a3, hp])
  have sx := S.strict x ix a2 a1
  have hxy : x = y := by
    refine leaf_unique h ru (ik := e.ikey) a1 hy a2 hk hl ?_ ?_ h1 h2
    · rw [← a5]; exact (h.body x ix a2 a1).lo j a4
    · rw [← a5]; exact sx.hi j a4
  subst hxy
  exact ⟨j, a4, a5⟩

theorem getLoop_complete {K : Bytes → Prop} (hK : NoClash K) (S : Strong K t G) (h : Inv0 t G) (ru : RU t G) {d : Bytes} {v : V}
    (hv : Has t G d v) : ∀ f n k x i, k.Sees d n → G x = some i → i.pfx.bytes = d.take (8 * n) → 8 * n ≤ d.length →
    d.length / 8 < n + f → getLoop t f k x = .ok (some v) := by
  intro f
  induction f with
  | zero => intro n k x i _ _ _ h1 h2; omega
  | succ f ih =>
    intro n k x i hk hx hp hn hf
    obtain ⟨r, ir, y, iy, h1, h2, h3, h4, h5, h6, h7, h8, h9⟩ := enter h k.ikey hx
    obtain ⟨f', hf'⟩ : ∃ f', chainFuel = f' + 2 := ⟨0, rfl⟩
    obtain ⟨e, e1, e2, e3⟩ := S.path_entry hK h ru hv hn ⟨x, i, hx, hp⟩ hk
    have hlt := h9.strict (S.strict y iy h7 h6).ne
    obtain ⟨j, hj, hje⟩ := S.in_leaf h ru e1 h6 h7 (by rw [h8, hp]) (by rw [e2.1]; exact h9.lo) (by rw [e2.1]; exact hlt)
    rcases leafLoop_hit h k h6 h7 (f' + 1) hj (by rw [hje]; exact e2) with ⟨v', g1, g2, g3⟩ | ⟨q, g1, g2, g3⟩
    · rw [hje] at g1 g2
      rcases e3 with e3 | e3
      · rw [e3] at g2; cases g2
        simp [getLoop, h1, h5, hf', g3, bind, Except.bind]
      · exact absurd e3 g1
    · have hm := e2
      rw [← hje] at hm
      have hs : k.hasSuffix = true := by
        rcases hm.2 with h | h
        · rcases searchKlx_cases k with ⟨a1, a2, _⟩ | ⟨a1, a2, a3, _⟩
          · exact a1
          · omega
        · exact h.2
      have hlen : 8 * n + 8 < d.length := by
        have := hk.hasSuffix
        rw [hs] at this
        have := of_decide_eq_true this.symm
        simp at this; omega
      obtain ⟨iq, hq, hqp⟩ := layer_pfx (h.layer y iy h7 h6) hj g2 hk (by rw [h8, hp]) hlen hm.1
      have := ih (n + 1) k.shift q iq hk.shift hq hqp (by omega) (by omega)
      simp [getLoop, h1, h5, hf', g3, bind, Except.bind, this]

/-- Lookups are exact. -/
theorem get_complete {K : Bytes → Prop} (hK : NoClash K) (S : Strong K t G) (h : Inv0 t G) (ru : RU t G) {d : Bytes} {v : V}
    (hd : d.length ≤ 256) (hv : Has t G d v) : get' t d = .ok (some v) := by
  obtain ⟨i, hi, hp, _⟩ := h.root
  have hnew : Key.new? d = some (Key.mk' d) := by simp [Key.new?, maxKeyLength, hd]
  have := getLoop_complete hK S h ru hv (d.length / 8 + 1) 0 (Key.mk' d) t.root i (Key.mk'_sees d) hi (by simpa using hp)
    (by omega) (by omega)
  simpa [get', hnew] using this

/-! ## The same without assumptions on the keys, while no split has separated equal chunks -/

/-- What holds as long as no leaf holds a chunk equal to its upper bound, whatever the keys. -/
structure Neat (t : Tree V) (G : Ghost) : Prop where
  hi : HiStrict t G
  ne : AllNe t G
  nz : ∀ p e, HasE t G p e → p ≠ [] → e.klx ≠ 0
  bu : ∀ x y ix iy, G x = some ix → G y = some iy → ix.pfx.bytes = iy.pfx.bytes → ix.pfx = iy.pfx
  owner : ∀ x ix, G x = some ix → ix.pfx.bytes ≠ [] → ∃ p c e q, ix.pfx.bytes = p ++ c ∧ c.length = 8 ∧ HasE t G p e ∧
    e.klx = 128 ∧ e.cell = .layer q ∧ e.ikey = chunk c

/-- A chunk and a length class determine the entry. -/
theorem Neat.ent_unique (S : Neat t G) (h : Inv t G G lk) (ru : RU t G) {p : Bytes} {e e' : Ent V}
    (h1 : HasE t G p e) (h2 : HasE t G p e') (hi : e.ikey = e'.ikey) (hc : cls e.klx = cls e'.klx) : e = e' := by
  obtain ⟨x, ix, j, a1, a2, a3, a4, a5⟩ := h1
  obtain ⟨y, iy, j', b1, b2, b3, b4, b5⟩ := h2
  have hl := S.bu x y ix iy a1 b1 (by rw [a3, b3])
  have hxy : x = y := by
    refine leaf_unique h ru (ik := e.ikey) a1 b1 a2 b2 hl ?_ ?_ ?_ ?_
    · rw [← a5]; exact (h.body x ix a2 a1).lo j a4
    · rw [← a5]; exact S.hi x ix a2 a1 j a4
    · rw [hi, ← b5]; exact (h.body y iy b2 b1).lo j' b4
    · rw [hi, ← b5]; exact S.hi y iy b2 b1 j' b4
  subst hxy
  rw [← a5, ← b5]
  rw [← a5, ← b5] at hi hc
  have hd := (h.body x ix a2 a1).dist
  rcases Nat.lt_trichotomy j j' with c | c | c
  · exact absurd hc (hd j j' c b4 hi)
  · rw [c]
  · exact absurd hc.symm (hd j' j c a4 hi.symm)

/-- Above an existing layer there is a layer pointer at every level. -/
theorem Neat.path (S : Neat t G) {d : Bytes} : ∀ n, 8 * n ≤ d.length →
    (∃ x ix, G x = some ix ∧ ix.pfx.bytes = d.take (8 * n)) → ∀ m, m < n →
    ∃ e q, HasE t G (d.take (8 * m)) e ∧ e.klx = 128 ∧ e.cell = .layer q ∧ e.ikey = chunk (d.drop (8 * m)) :=
  path_of_owner S.owner

/-- If the key is held, then at every existing layer on its path there is an entry for it. -/
theorem Neat.path_entry (S : Neat t G) (h : Inv t G G lk) (ru : RU t G) {d : Bytes} {v : V}
    (hv : Has t G d v) {n : Nat} (hn : n = 0 ∨ 8 * n < d.length) (hx : ∃ x ix, G x = some ix ∧ ix.pfx.bytes = d.take (8 * n))
    {k : Key} (hk : k.Sees d n) : ∃ e, HasE t G (d.take (8 * n)) e ∧ Matches e k ∧ (e.cell = .val v ∨ e.klx = 128) := by
  obtain ⟨p, e, he, hc, hek⟩ := has_iff.1 hv
  have h8 := HasE.len8 h he
  obtain ⟨n', hn'⟩ : ∃ n', p.length = 8 * n' := ⟨p.length / 8, by omega⟩
  have hpath := hek.path
  have hp : p = d.take (8 * n') := by rw [← hn']; exact hpath.pre
  have hle := hpath.le
  obtain ⟨r, r1, r2, r3⟩ := id hek
  have hlr : d.length = 8 * n' + r.length := by rw [r1, List.length_append, hn']
  rcases Nat.lt_trichotomy n' n with c | c | c
  · exfalso
    obtain ⟨e2, q, a1, a2, a3, a4⟩ := S.path n (by omega) hx n' c
    have hklx : e.klx = 64 := by omega
    have : e = e2 := S.ent_unique h ru he (by rw [hp]; exact a1) (by rw [a4, ← hpath.ikey, hn']) (by rw [hklx, a2]; rfl)
    subst this
    omega
  · subst c
    have hm := matches_of_entKey hk hn' hek
    exact ⟨e, by rw [← hp]; exact he, hm.1, Or.inl hc⟩
  · obtain ⟨x, ix, j, b1, b2, b3, _⟩ := id he
    obtain ⟨e2, q, a1, a2, a3, a4⟩ := S.path (d := d) n' (by omega) ⟨x, ix, b1, by rw [b3, hp]⟩ n c
    refine ⟨e2, a1, ⟨by rw [a4, hk.ikey_eq], Or.inr ⟨a2, ?_⟩⟩, Or.inr a2⟩
    have hnz := S.nz p e he (by intro c; rw [c] at hn'; simp at hn'; omega)
    rw [hk.hasSuffix]
    apply decide_eq_true
    rw [List.length_drop]
    omega

/-- The entry for a chunk is in the leaf responsible for it. -/
theorem Neat.in_leaf (S : Neat t G) (h : Inv t G G lk) (ru : RU t G) {p : Bytes} {e : Ent V}
    (he : HasE t G p e) {y : Nat} {iy : Info} (hy : G y = some iy) (hk : t.kind y = some .leaf) (hp : iy.pfx.bytes = p)
    (h1 : iy.lo ≤ e.ikey) (h2 : ltHi e.ikey iy.hi) : ∃ j, j < (t.body y).n ∧ (t.body y).ent j = e := by
  obtain ⟨x, ix, j, a1, a2, a3, a4, a5⟩ := he
  have hl := S.bu x y ix iy a1 hy (by rw [a3, hp])
  have hxy : x = y := by
    refine leaf_unique h ru (ik := e.ikey) a1 hy a2 hk hl ?_ ?_ h1 h2
    · rw [← a5]; exact (h.body x ix a2 a1).lo j a4
    · rw [← a5]; exact S.hi x ix a2 a1 j a4
  subst hxy
  exact ⟨j, a4, a5⟩

theorem Neat.getLoop_complete (S : Neat t G) (h : Inv0 t G) (ru : RU t G) {d : Bytes} {v : V}
    (hv : Has t G d v) : ∀ f n k x i, k.Sees d n → G x = some i → i.pfx.bytes = d.take (8 * n) → n = 0 ∨ 8 * n < d.length →
    d.length / 8 < n + f → getLoop t f k x = .ok (some v) := by
  intro f
  induction f with
  | zero => intro n k x i _ _ _ h1 h2; omega
  | succ f ih =>
    intro n k x i hk hx hp hn hf
    obtain ⟨r, ir, y, iy, h1, h2, h3, h4, h5, h6, h7, h8, h9⟩ := enter h k.ikey hx
    obtain ⟨f', hf'⟩ : ∃ f', chainFuel = f' + 2 := ⟨0, rfl⟩
    obtain ⟨e, e1, e2, e3⟩ := S.path_entry h ru hv hn ⟨x, i, hx, hp⟩ hk
    have hlt := h9.strict (S.ne y iy h7 h6)
    obtain ⟨j, hj, hje⟩ := S.in_leaf h ru e1 h6 h7 (by rw [h8, hp]) (by rw [e2.1]; exact h9.lo) (by rw [e2.1]; exact hlt)
    rcases leafLoop_hit h k h6 h7 (f' + 1) hj (by rw [hje]; exact e2) with ⟨v', g1, g2, g3⟩ | ⟨q, g1, g2, g3⟩
    · rw [hje] at g1 g2
      rcases e3 with e3 | e3
      · rw [e3] at g2; cases g2
        simp [getLoop, h1, h5, hf', g3, bind, Except.bind]
      · exact absurd e3 g1
    · have hm := e2
      rw [← hje] at hm
      have hs : k.hasSuffix = true := by
        rcases hm.2 with h | h
        · rcases searchKlx_cases k with ⟨a1, a2, _⟩ | ⟨a1, a2, a3, _⟩
          · exact a1
          · omega
        · exact h.2
      have hlen : 8 * n + 8 < d.length := by
        have := hk.hasSuffix
        rw [hs] at this
        have := of_decide_eq_true this.symm
        simp at this; omega
      obtain ⟨iq, hq, hqp⟩ := layer_pfx (h.layer y iy h7 h6) hj g2 hk (by rw [h8, hp]) hlen hm.1
      have := ih (n + 1) k.shift q iq hk.shift hq hqp (by omega) (by omega)
      simp [getLoop, h1, h5, hf', g3, bind, Except.bind, this]

/-- Lookups are exact. -/
theorem Neat.get_complete (S : Neat t G) (h : Inv0 t G) (ru : RU t G) {d : Bytes} {v : V}
    (hd : d.length ≤ 256) (hv : Has t G d v) : get' t d = .ok (some v) := by
  obtain ⟨i, hi, hp, _⟩ := h.root
  have hnew : Key.new? d = some (Key.mk' d) := by simp [Key.new?, maxKeyLength, hd]
  have := S.getLoop_complete h ru hv (d.length / 8 + 1) 0 (Key.mk' d) t.root i (Key.mk'_sees d) hi (by simpa using hp)
    (by omega) (by omega)
  simpa [get', hnew] using this

end Verif.Tree
