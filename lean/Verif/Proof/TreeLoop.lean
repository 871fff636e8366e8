import Verif.Proof.TreeInsert
set_option linter.unusedSimpArgs false
set_option linter.unusedVariables false
/-!
# The insert loop: never fails, and does what `Step` says
-/
namespace Verif.Tree
open Verif.Spec (Bytes chunk lenClass)
open Verif.Internode (Arr upd)
open Verif.Perm (size get back backAtOffset insertFromBack swapFreeSlots setSize makeSorted24 params24)
variable {V : Type}
variable {t : Tree V} {G : Ghost} {lk : Nat → Prop}
variable {K : Bytes → Prop} {d : Bytes} {n : Nat} {k : Key} {v : V} {l : Nat} {i : Info}

theorem SplitOut.has {lay : Layer} {ik B : Nat} {t1 : Tree V} {G1 : Ghost} (S : SplitOut t G lay ik B t1 G1) {d' : Bytes} {v' : V} :
    Has t1 G1 d' v' ↔ Has t G d' v' := by
  rw [has_iff, has_iff]
  constructor
  · rintro ⟨p, e, h1, h2⟩; exact ⟨p, e, (S.ents p e).1 h1, h2⟩
  · rintro ⟨p, e, h1, h2⟩; exact ⟨p, e, (S.ents p e).2 h1, h2⟩

theorem SplitOut.strongS {lay : Layer} {ik B : Nat} {t1 : Tree V} {G1 : Ghost} (S : SplitOut t G lay ik B t1 G1)
    (h : Strong K t G) : Strong K t1 G1 := by
  refine ⟨S.strict h.strict, fun p e he => h.key p e ((S.ents p e).1 he), ?_, ?_⟩
  · intro x y ix iy hx hy e
    obtain ⟨x', ix', g1, g2⟩ := S.back x ix hx
    obtain ⟨y', iy', g3, g4⟩ := S.back y iy hy
    rw [← g2, ← g4]
    exact h.bu x' y' ix' iy' g1 g3 (by rw [g2, g4, e])
  · intro x ix hx hne
    obtain ⟨x', ix', g1, g2⟩ := S.back x ix hx
    obtain ⟨p, c, e, q, o1, o2, o3, o4⟩ := h.owner x' ix' g1 (by rw [g2]; exact hne)
    exact ⟨p, c, e, q, by rw [← g2, o1], o2, (S.ents p e).2 o3, o4⟩

theorem SplitOut.neatS {lay : Layer} {ik B : Nat} {t1 : Tree V} {G1 : Ghost} (S : SplitOut t G lay ik B t1 G1)
    (hs : HiStrict t1 G1) (h : Neat t G) : Neat t1 G1 := by
  refine ⟨hs, S.ne h.hi h.ne, fun p e he => h.nz p e ((S.ents p e).1 he), ?_, ?_⟩
  · intro x y ix iy hx hy e
    obtain ⟨x', ix', g1, g2⟩ := S.back x ix hx
    obtain ⟨y', iy', g3, g4⟩ := S.back y iy hy
    rw [← g2, ← g4]
    exact h.bu x' y' ix' iy' g1 g3 (by rw [g2, g4, e])
  · intro x ix hx hne
    obtain ⟨x', ix', g1, g2⟩ := S.back x ix hx
    obtain ⟨p, c, e, q, o1, o2, o3, o4⟩ := h.owner x' ix' g1 (by rw [g2]; exact hne)
    exact ⟨p, c, e, q, by rw [← g2, o1], o2, (S.ents p e).2 o3, o4⟩

theorem Step.afterSplit {lay : Layer} {ik B : Nat} {t1 t2 : Tree V} {G1 G2 : Ghost} {r : Option V}
    (S : SplitOut t G lay ik B t1 G1) (P : Step K t1 G1 d v r t2 G2) : Step K t G d v r t2 G2 where
  inv := P.inv
  ru := P.ru
  idb := P.idb
  sound := fun d' v' h => (P.sound d' v' h).imp S.has.1 id
  keep := fun d' v' hne h => P.keep d' v' hne (S.has.2 h)
  new := P.new
  old := fun o h => S.has.1 (P.old o h)
  count := by rw [P.count, S.count]
  strong := fun hK hd h => P.strong hK hd (S.strongS h)
  none := fun hK hd h hr v' hv => P.none hK hd (S.strongS h) hr v' (S.has.2 hv)
  occ := fun p ⟨e, he⟩ => P.occ p ⟨e, (S.ents p e).2 he⟩
  r0 := fun h => P.r0 (by
    intro x y ix iy hx hy e1 e2
    obtain ⟨x', ix', g1, g2⟩ := S.back x ix hx
    obtain ⟨y', iy', g3, g4⟩ := S.back y iy hy
    rw [← g2, ← g4]
    exact h x' y' ix' iy' g1 g3 (by rw [g2, e1]) (by rw [g4, e2]))
  fresh := Nat.le_trans S.fresh P.fresh
  kind := fun x hlt => by rw [P.kind x (Nat.lt_of_lt_of_le hlt S.fresh), S.kind x hlt]
  low := fun x i hx => by
    obtain ⟨i1, a1, a2, a3, a4⟩ := S.low x i hx
    obtain ⟨i2, b1, b2, b3, b4⟩ := P.low x i1 a1
    exact ⟨i2, b1, by rw [b2, a2], by rw [b3, a3], fun z hz => a4 z (b4 z hz)⟩
  anti := fun h => S.anti (P.anti h)
  neat := fun hs h => P.neat hs (S.neatS (P.anti hs) h)
  nil := fun hs h hr v' hv => P.nil hs (S.neatS (P.anti hs) h) hr v' (S.has.2 hv)

theorem SplitOut.ofLock {lay : Layer} {ik B : Nat} {t1 : Tree V} {G1 : Ghost}
    (S : SplitOut (lockT t l) G lay ik B t1 G1) : SplitOut t G lay ik B t1 G1 :=
  ⟨S.inv, S.ru, S.ents, S.count, S.fresh, S.kind, S.ghost, S.back, S.hgtB, S.room, S.strict, S.low, S.anti, S.ne⟩

/-- What is needed for the loop at the layer of depth `n` to end within `f` rounds. -/
def FuelOK (t : Tree V) (G : Ghost) (lay : Layer) (ik L n f : Nat) : Prop :=
  2 * (L - n) + 2 ≤ f ∨ (2 * (L - n) + 1 ≤ f ∧ ∃ y iy, G y = some iy ∧ t.kind y = some .leaf ∧ iy.pfx = lay ∧ iy.lo ≤ ik ∧
    ltHi ik iy.hi ∧ (t.body y).n < 24)

theorem insertLoop_ok (hd : d.length ≤ 256) : ∀ f n (t : Tree V) G k lr ilr, Inv0 t G → RU t G → IdB t G → k.Sees d n →
    G lr = some ilr → ilr.pfx.bytes = d.take (8 * n) → 8 * n ≤ d.length →
    n = 0 ∨ 8 * n < d.length → t.fresh + 100 * f < 8 ^ 50 →
    FuelOK t G ilr.pfx k.ikey (d.length / 8) n f →
    ∃ t' r G', insertLoop v f t k lr = .ok (t', r) ∧ Step K t G d v r t' G' ∧ t'.fresh ≤ t.fresh + 100 * f ∧
      (n = 0 ∨ (∃ e, HasE t G [] e) → ∃ e, HasE t' G' [] e) := by
  intro f
  induction f with
  | zero =>
    intro n t G k lr ilr _ _ _ _ _ _ _ _ _ hf
    rcases hf with hf | ⟨hf, _⟩ <;> omega
  | succ f ih =>
    intro n t G k lr ilr h ru idb hk hx hp hn hn0 hfr hf
    obtain ⟨r, ir, y, iy, a1, a2, a3, a4, a5, a6, a7, a8, a9⟩ := enter h k.ikey hx
    obtain ⟨l, il, b1, b2, b3, b4, b5, b6⟩ := advance_ok h a6 a7 a9 126
    have hlk := h.unlocked b2
    have hT := lock_inv h (l := l)
    have hbd := h.body l il b3 b2
    have hpl : il.pfx = ilr.pfx := by rw [b4, a8]
    have hpb : il.pfx.bytes = d.take (8 * n) := by rw [hpl, hp]
    have key : insertLoop v (f + 1) t k lr =
        (match searchForInsert (t.body l) k 0 (size 5 (t.body l).perm) with
        | .found s =>
          match (t.body l).cell s with
          | .null => insertLoop v f (unlock (lockT t l) l) k r
          | .layer _ => .error .misread
          | .val old => .ok (putT (lockT t l) l { (t.body l) with cell := upd (t.body l).cell s (.val v) } t.count, some old)
        | .notFound pos =>
          if leafWidth ≤ size 5 (t.body l).perm then do
            let t ← handleLeafSplit (lockT t l) l k.ikey
            insertLoop v f t k r
          else
            let s := back 5 24 (t.body l).perm
            if s = 0 ∧ canReuseSlot0 (lockT t l) l k.ikey = false then
              match findAlt (t.body l).perm 1 (leafWidth - size 5 (t.body l).perm - 1) with
              | some (alt, off) =>
                let nb := { assignSlot (t.body l) alt k v with
                  perm := (insertFromBack 5 24 (swapFreeSlots 5 (t.body l).perm 23 (23 - off)) pos).1 }
                .ok ({ unlock { lockT t l with body := upd (lockT t l).body l nb } l with count := (lockT t l).count + 1 }, none)
              | none => do
                let t ← handleLeafSplit (lockT t l) l k.ikey
                insertLoop v f t k r
            else
              .ok (putT (lockT t l) l { (assignSlot (t.body l) s k v) with
                perm := (insertFromBack 5 24 (t.body l).perm pos).1 } (t.count + 1), none)
        | .layer s =>
          match (t.body l).cell s with
          | .layer q => insertLoop v f (unlock (lockT t l) l) k.shift q
          | _ => .error .misread
        | .conflict s => do
          let (t', p) ← createLayer (lockT t l) (t.body l) s k v
          let nb := { (t.body l) with ksuf := upd (t.body l).ksuf s none, klx := upd (t.body l).klx s layerKeylenx,
                                      cell := upd (t.body l).cell s (.layer p) }
          .ok ({ unlock { t' with body := upd t'.body l nb } l with count := t'.count + 1 }, none)) := by
      have hlf : leafAt t l = .ok (t.body l) := by simp [leafAt, b3]
      rw [insertLoop]
      simp only [a1, a5, bind, Except.bind, maxBlinkHops, b1, Bool.false_eq_true, if_false, hlf, lock_ok hlk]
      cases hnx : (lockT t l).next l with
      | none => simp only [Bool.false_eq_true, if_false]; rfl
      | some q =>
        obtain ⟨iq, hq, hb⟩ := next_bound hT b3 b2 hnx
        have : ¬ iq.lo ≤ k.ikey := by have := b6 _ hq.lo; omega
        simp only [hb, decide_eq_false this, Bool.false_eq_true, if_false]
        rfl
    have S := search_insert_spec hbd k
    have hocc : ∀ j, j < (t.body l).n → n = 0 ∨ (∃ e, HasE t G [] e) → ∃ e, HasE t G [] e := by
      intro j hj c
      rcases c with c | c
      · refine ⟨_, l, il, j, b2, b3, ?_, hj, rfl⟩
        rw [hpb, c]; simp
      · exact c
    generalize hres : searchForInsert (t.body l) k 0 (size 5 (t.body l).perm) = res at S key
    rw [key]
    cases S with
    | found j hj hm old hc hkx =>
      have hc' : (t.body l).cell (get 5 (t.body l).perm j) = .val old := hc
      have st := step_found (K := K) (v := v) h ru idb hk b2 b3 hpb hj hm hc hkx
      refine ⟨_, _, _, ?_, st, ?_, fun c => st.occ [] ?_⟩
      · simp only [hc']
      · show t.fresh ≤ _; omega
      · exact hocc j hj c
    | layer j hj hi hs hkx q hc =>
      have hc' : (t.body l).cell (get 5 (t.body l).perm j) = .layer q := hc
      have hlen : 8 * n + 8 < d.length := by
        have := hk.hasSuffix
        rw [hs] at this
        have := of_decide_eq_true this.symm
        simp only [List.length_drop] at this; omega
      obtain ⟨iq, hq, hqp⟩ := layer_pfx (h.layer l il b3 b2) hj hc hk hpb hlen hi
      obtain ⟨t', r', G', g1, g2, g3, g4⟩ := ih (n + 1) t G k.shift q iq h ru idb hk.shift hq hqp (by omega) (by omega) (by omega)
        (Or.inl (by rcases hf with hf | ⟨hf, _⟩ <;> omega))
      refine ⟨t', r', G', ?_, g2, by omega, fun c => g4 (Or.inr (hocc j hj c))⟩
      simp only [hc', unlock_lock hlk]
      exact g1
    | conflict j hj hi hs hkx ev hc se hsf hne hs0 hsl =>
      have hne' : se ≠ d.drop (8 * (n + 1)) := by
        rw [hk.suffix] at hne
        rw [List.drop_drop] at hne
        intro e; apply hne; rw [e]; rfl
      obtain ⟨t1, m, g1, g2⟩ := createLayer_out (lockT t l) (b := t.body l) (slot := get 5 (t.body l).perm j) hkx hsf hc hs0 hsl
        hk hd hs hne' v
      have hcnt : t1.count = t.count := g2.added.count
      have st := step_conflict (K := K) h ru idb hk hd b2 b3 hpb b5 b6 hj hi hs hkx hc hsf hne hs0 hsl g2
      refine ⟨_, _, _, ?_, st, ?_, fun c => st.occ [] (hocc j hj c)⟩
      · simp only [g1, bind, Except.bind]
        rw [hcnt]; rfl
      · show t1.fresh ≤ _
        have e1 := g2.fresh
        have e2 := g2.l1
        change t1.fresh = t.fresh + m + 1 at e1
        omega
    | notFound pos hpos h1 h2 h3 =>
      by_cases full : leafWidth ≤ size 5 (t.body l).perm
      · -- split, then retry
        have hn24 : (t.body l).n = 24 := Nat.le_antisymm hbd.perm.size_le full
        have hH := height_bound hT (by show t.fresh < _; omega)
        obtain ⟨t1, G1, g1, g2⟩ := handleLeafSplit_ok hT b2 b3 hn24 b5 b6 hH (by omega)
        have g3 := handleLeafSplit_fresh g1
        change t1.fresh ≤ t.fresh + 65 at g3
        have hidb : IdB t1 G1 := by
          intro x ix hx
          obtain ⟨y, iy, c1, c2⟩ := g2.back x ix hx
          have := idb y iy c1
          rw [c2] at this
          have := g2.fresh
          change t.fresh ≤ t1.fresh at this
          omega
        obtain ⟨ir', c1, c2⟩ := g2.ghost r ir a2
        have hpr : ir'.pfx = ilr.pfx := by rw [c2, a3]
        have hroom : ¬ ∃ y iy, G y = some iy ∧ t.kind y = some .leaf ∧ iy.pfx = ilr.pfx ∧ iy.lo ≤ k.ikey ∧
            ltHi k.ikey iy.hi ∧ (t.body y).n < 24 := by
          rintro ⟨z, iz, e1, e2, e3, e4, e5, e6⟩
          have := leaf_unique h ru b2 e1 b3 e2 (by rw [hpl, e3]) b5 b6 e4 e5
          subst this
          omega
        have hf2 : 2 * (d.length / 8 - n) + 2 ≤ f + 1 := by
          rcases hf with hf | ⟨_, hf⟩
          · exact hf
          · exact absurd hf hroom
        have := g2.room
        rw [hpl] at this
        obtain ⟨t', r', G', e1, e2, e3, e4⟩ := ih n t1 G1 k r ir' g2.inv (g2.ru ru) hidb hk c1 (by rw [hpr, hp]) hn hn0 (by omega)
          (Or.inr ⟨by omega, by rw [hpr]; exact this⟩)
        refine ⟨t', r', G', ?_, Step.afterSplit g2.ofLock e2, by omega, fun c => e4 (c.imp id fun ⟨e, he⟩ => ⟨e, (g2.ents _ e).2 he⟩)⟩
        simp only [if_pos full, g1, bind, Except.bind]
        exact e1
      · have hn24 : (t.body l).n < 24 := by unfold leafWidth at full; unfold Leaf.n; omega
        have hslot : ¬ (back 5 24 (t.body l).perm = 0 ∧ canReuseSlot0 (lockT t l) l k.ikey = false) := by
          rintro ⟨c1, c2⟩
          cases hpv : t.prev l with
          | none =>
            have hpv' : (lockT t l).prev l = none := hpv
            simp [canReuseSlot0, hpv'] at c2
          | some w =>
            obtain ⟨e1, _, _⟩ := (h.link l il b3 b2).slot0 (by rw [hpv]; simp)
            have : get 5 (t.body l).perm 0 = get 5 (t.body l).perm 23 := by rw [e1]; exact c1.symm
            have := hbd.perm.inj 0 23 (by omega) (by omega) this
            omega
        obtain ⟨st, e0, he0⟩ := step_insert (K := K) (v := v) h ru idb hk hd b2 b3 hpb hn hn0 b5 b6 hn24 hpos h1 h2 h3
        refine ⟨_, _, _, ?_, st, ?_, fun c => ?_⟩
        · simp only [if_neg full, if_neg hslot]
        · show t.fresh ≤ _; omega
        · rcases c with c | c
          · refine ⟨e0, ?_⟩
            rw [hpb, c] at he0
            simpa using he0
          · exact st.occ [] c

end Verif.Tree
