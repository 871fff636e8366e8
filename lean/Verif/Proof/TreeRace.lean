import Verif.Spec.Threads
import Verif.Proof.TreeNeat
set_option linter.unusedSimpArgs false
set_option linter.unusedVariables false
set_option maxRecDepth 100000
/-!
# Many threads on one tree: invariants
-/
namespace Verif.Threads
open Verif.Spec
open Verif.Internode (Arr upd upd_same upd_ne)
open Verif.Perm (size get back insertFromBack swapFreeSlots)
open Verif.Tree
variable {V : Type}

/-- A round of `insertLoop` is: climb, descend, advance, then one critical section. -/
theorem insertLoop_eq (v : V) (f : Nat) (t : Tree V) (k : Key) (lr : Nat) :
    insertLoop v (f + 1) t k lr = (do
      let r ← maybeParent t (walkFuel t) lr
      let l0 ← reachLeaf t r k.ikey (walkFuel t) r
      let (l, exceeded) ← advance t k.ikey maxBlinkHops l0
      if exceeded then insertLoop v f t k t.root
      else
        match ← crit v t k r l with
        | (t', .again k' lr') => insertLoop v f t' k' lr'
        | (t', .done x) => .ok (t', x)) := by
  rw [insertLoop]
  cases maybeParent t (walkFuel t) lr with
  | error e => rfl
  | ok r =>
    cases h : reachLeaf t r k.ikey (walkFuel t) r with
    | error e => simp only [bind, Except.bind, h]
    | ok l0 =>
      cases h2 : advance t k.ikey maxBlinkHops l0 with
      | error e => simp only [bind, Except.bind, h, h2]
      | ok x =>
        obtain ⟨l, ex⟩ := x
        simp only [bind, Except.bind, h, h2]
        cases ex with
        | true => rfl
        | false =>
          simp only [Bool.false_eq_true, if_false]
          unfold crit
          cases h3 : leafAt t l with
          | error e => simp only [bind, Except.bind, h3]
          | ok b =>
            cases h4 : lock t l with
            | error e => simp only [bind, Except.bind, h3, h4]
            | ok t1 =>
              simp only [bind, Except.bind, h3, h4]
              repeat' first
                | rfl
                | (simp only [Except.bind, Bool.false_eq_true, if_false, if_true, *]; done)
                | split


/-! ## How the tree evolves -/

/-- Whatever a thread does, nodes stay, with their kind, layer and lower bound; upper bounds shrink. -/
structure Ext (t : Tree V) (G : Ghost) (t' : Tree V) (G' : Ghost) : Prop where
  inv : Inv0 t' G'
  ru : RU t' G'
  idb : IdB t' G'
  r0 : R0 G → R0 G'
  kind : ∀ x, x < t.fresh → t'.kind x = t.kind x
  low : ∀ x i, G x = some i → ∃ i', G' x = some i' ∧ i'.pfx = i.pfx ∧ i'.lo = i.lo ∧ ∀ z, ltHi z i'.hi → ltHi z i.hi
  anti : HiStrict t' G' → HiStrict t G

/-- Nothing is added or removed. -/
structure Same (t : Tree V) (G : Ghost) (t' : Tree V) (G' : Ghost) : Prop where
  has : ∀ d v, Has t' G' d v ↔ Has t G d v
  count : t'.count = t.count
  strong : ∀ K, Strong K t G → Strong K t' G'
  neat : HiStrict t' G' → Neat t G → Neat t' G'

theorem Ext.refl {t : Tree V} {G : Ghost} (h : Inv0 t G) (ru : RU t G) (idb : IdB t G) : Ext t G t G :=
  ⟨h, ru, idb, id, fun _ _ => rfl, fun x i hx => ⟨i, hx, rfl, rfl, fun _ h => h⟩, id⟩

theorem Ext.ofStep {K : Bytes → Prop} {t t' : Tree V} {G G' : Ghost} {d : Bytes} {v : V} {r : Option V}
    (s : Step K t G d v r t' G') : Ext t G t' G' := ⟨s.inv, s.ru, s.idb, s.r0, s.kind, s.low, s.anti⟩

theorem Ext.ofSplit {t t' : Tree V} {G G' : Ghost} {lay : Layer} {ik B : Nat} (S : SplitOut t G lay ik B t' G')
    (ru : RU t G) (idb : IdB t G) : Ext t G t' G' := by
  refine ⟨S.inv, S.ru ru, ?_, ?_, S.kind, S.low, S.anti⟩
  · intro x ix hx
    obtain ⟨y, iy, c1, c2⟩ := S.back x ix hx
    have := idb y iy c1
    rw [c2] at this
    exact Nat.lt_of_lt_of_le this S.fresh
  · intro h x y ix iy hx hy e1 e2
    obtain ⟨x', ix', g1, g2⟩ := S.back x ix hx
    obtain ⟨y', iy', g3, g4⟩ := S.back y iy hy
    rw [← g2, ← g4]
    exact h x' y' ix' iy' g1 g3 (by rw [g2, e1]) (by rw [g4, e2])

theorem Same.ofSplit {t t' : Tree V} {G G' : Ghost} {lay : Layer} {ik B : Nat} (S : SplitOut t G lay ik B t' G') :
    Same t G t' G' := ⟨fun _ _ => S.has, S.count, fun _ h => S.strongS h, S.neatS⟩

theorem Same.refl (t : Tree V) (G : Ghost) : Same t G t G := ⟨fun _ _ => Iff.rfl, rfl, fun _ h => h, fun _ h => h⟩

/-- A critical section on a leaf of the right layer whose lower bound does not exceed the chunk. -/
theorem crit_ok {t : Tree V} {G : Ghost} (h : Inv0 t G) (ru : RU t G) (idb : IdB t G) {d : Bytes} {n : Nat} {k : Key}
    (hk : k.Sees d n) (hn : 8 * n ≤ d.length) (hn0 : n = 0 ∨ 8 * n < d.length) (hd : d.length ≤ 256) (v : V) {r l : Nat} {ir il : Info} (hr : G r = some ir)
    (hrp : ir.pfx.bytes = d.take (8 * n)) (b2 : G l = some il) (b3 : t.kind l = some .leaf)
    (hpb : il.pfx.bytes = d.take (8 * n)) (b5 : il.lo ≤ k.ikey) (hfr : t.fresh + 100 < 8 ^ 50) :
    ∃ t' nx G', crit v t k r l = .ok (t', nx) ∧ Ext t G t' G' ∧ t'.fresh ≤ t.fresh + 100 ∧
      ((∃ x, nx = .done x ∧ ∀ K, Step K t G d v x t' G') ∨
       (∃ k' lr n' ilr, nx = .again k' lr ∧ Same t G t' G' ∧ k'.Sees d n' ∧ 8 * n' ≤ d.length ∧ G' lr = some ilr ∧
          ilr.pfx.bytes = d.take (8 * n') ∧ (n' = 0 ∨ 8 * n' < d.length) ∧ ((k' = k ∧ n' = n) ∨ (k' = k.shift ∧ n' = n + 1)) ∧
          (¬ ltHi k.ikey il.hi ∨ (t.body l).n = 24 ∨ ∃ j, j < (t.body l).n ∧ ((t.body l).ent j).ikey = k.ikey))) := by
  have hlk := h.unlocked b2
  have hT := lock_inv h (l := l)
  have hbd := h.body l il b3 b2
  have hlf : leafAt t l = .ok (t.body l) := by simp [leafAt, b3]
  have again : ∀ t' nx, crit v t k r l = .ok (t', nx) → t' = t → nx = .again k r → ¬ ltHi k.ikey il.hi →
      ∃ t' nx G', crit v t k r l = .ok (t', nx) ∧ Ext t G t' G' ∧ t'.fresh ≤ t.fresh + 100 ∧
      ((∃ x, nx = .done x ∧ ∀ K, Step K t G d v x t' G') ∨
       (∃ k' lr n' ilr, nx = .again k' lr ∧ Same t G t' G' ∧ k'.Sees d n' ∧ 8 * n' ≤ d.length ∧ G' lr = some ilr ∧
          ilr.pfx.bytes = d.take (8 * n') ∧ (n' = 0 ∨ 8 * n' < d.length) ∧ ((k' = k ∧ n' = n) ∨ (k' = k.shift ∧ n' = n + 1)) ∧
          (¬ ltHi k.ikey il.hi ∨ (t.body l).n = 24 ∨ ∃ j, j < (t.body l).n ∧ ((t.body l).ent j).ikey = k.ikey))) := by
    intro t' nx e1 e2 e3 e4
    subst e2; subst e3
    exact ⟨_, _, G, e1, Ext.refl h ru idb, by omega, Or.inr ⟨k, r, n, ir, rfl, Same.refl _ _, hk, hn, hr, hrp, hn0, Or.inl ⟨rfl, rfl⟩, Or.inl e4⟩⟩
  -- the check after locking
  by_cases b6 : ltHi k.ikey il.hi
  case neg =>
    cases hnx : (lockT t l).next l with
    | none => exact absurd (by rw [(h.link l il b3 b2).nonext hnx]; simp) b6
    | some q =>
      obtain ⟨iq, hq, hb⟩ := next_bound hT b3 b2 hnx
      have : iq.lo ≤ k.ikey := by
        by_contra c
        exact b6 (by rw [hq.lo]; simp; omega)
      refine again _ _ ?_ (unlock_lock hlk) rfl b6
      simp only [crit, hlf, lock_ok hlk, hnx, hb, bind, Except.bind, decide_eq_true this, if_true]
  have key : crit v t k r l =
      (match searchForInsert (t.body l) k 0 (size 5 (t.body l).perm) with
      | .found s =>
        match (t.body l).cell s with
        | .null => .ok (unlock (lockT t l) l, .again k r)
        | .layer _ => .error .misread
        | .val old => .ok (putT (lockT t l) l { (t.body l) with cell := upd (t.body l).cell s (.val v) } t.count, .done (some old))
      | .notFound pos =>
        if leafWidth ≤ size 5 (t.body l).perm then do
          let t ← handleLeafSplit (lockT t l) l k.ikey
          .ok (t, .again k r)
        else
          let s := back 5 24 (t.body l).perm
          if s = 0 ∧ canReuseSlot0 (lockT t l) l k.ikey = false then
            match findAlt (t.body l).perm 1 (leafWidth - size 5 (t.body l).perm - 1) with
            | some (alt, off) =>
              let nb := { assignSlot (t.body l) alt k v with
                perm := (insertFromBack 5 24 (swapFreeSlots 5 (t.body l).perm 23 (23 - off)) pos).1 }
              .ok ({ unlock { lockT t l with body := upd (lockT t l).body l nb } l with count := (lockT t l).count + 1 }, .done none)
            | none => do
              let t ← handleLeafSplit (lockT t l) l k.ikey
              .ok (t, .again k r)
          else
            .ok (putT (lockT t l) l { (assignSlot (t.body l) s k v) with
              perm := (insertFromBack 5 24 (t.body l).perm pos).1 } (t.count + 1), .done none)
      | .layer s =>
        match (t.body l).cell s with
        | .layer q => .ok (unlock (lockT t l) l, .again k.shift q)
        | _ => .error .misread
      | .conflict s => do
        let (t', p) ← createLayer (lockT t l) (t.body l) s k v
        let nb := { (t.body l) with ksuf := upd (t.body l).ksuf s none, klx := upd (t.body l).klx s layerKeylenx,
                                    cell := upd (t.body l).cell s (.layer p) }
        .ok ({ unlock { t' with body := upd t'.body l nb } l with count := t'.count + 1 }, .done none)) := by
    simp only [crit, bind, Except.bind, hlf, lock_ok hlk]
    cases hnx : (lockT t l).next l with
    | none => simp only [Bool.false_eq_true, if_false]; rfl
    | some q =>
      obtain ⟨iq, hq, hb⟩ := next_bound hT b3 b2 hnx
      have : ¬ iq.lo ≤ k.ikey := by have := b6 _ hq.lo; omega
      simp only [hb, decide_eq_false this, Bool.false_eq_true, if_false]
      rfl
  have S := search_insert_spec hbd k
  generalize hres : searchForInsert (t.body l) k 0 (size 5 (t.body l).perm) = res at S key
  rw [key]
  clear again key
  cases S with
  | found j hj hm old hc hkx =>
    have hc' : (t.body l).cell (get 5 (t.body l).perm j) = .val old := hc
    have st := fun K => step_found (K := K) (v := v) h ru idb hk b2 b3 hpb hj hm hc hkx
    refine ⟨_, _, _, ?_, Ext.ofStep (st (fun _ => True)), ?_, Or.inl ⟨_, rfl, st⟩⟩
    · simp only [hc']
    · show t.fresh ≤ _; omega
  | layer j hj hi hs hkx q hc =>
    have hc' : (t.body l).cell (get 5 (t.body l).perm j) = .layer q := hc
    have hlen : 8 * n + 8 < d.length := by
      have := hk.hasSuffix
      rw [hs] at this
      have := of_decide_eq_true this.symm
      simp only [List.length_drop] at this; omega
    obtain ⟨iq, hq, hqp⟩ := layer_pfx (h.layer l il b3 b2) hj hc hk hpb hlen hi
    refine ⟨t, _, G, ?_, Ext.refl h ru idb, by omega,
      Or.inr ⟨k.shift, q, n + 1, iq, rfl, Same.refl _ _, hk.shift, by omega, hq, hqp, Or.inr (by omega), Or.inr ⟨rfl, rfl⟩, Or.inr (Or.inr ⟨j, hj, hi⟩)⟩⟩
    simp only [hc', unlock_lock hlk]
  | conflict j hj hi hs hkx ev hc se hsf hne hs0 hsl =>
    have hne' : se ≠ d.drop (8 * (n + 1)) := by
      rw [hk.suffix] at hne
      rw [List.drop_drop] at hne
      intro e; apply hne; rw [e]; rfl
    obtain ⟨t1, m, g1, g2⟩ := createLayer_out (lockT t l) (b := t.body l) (slot := get 5 (t.body l).perm j) hkx hsf hc hs0 hsl
      hk hd hs hne' v
    have hcnt : t1.count = t.count := g2.added.count
    have st := fun K => step_conflict (K := K) h ru idb hk hd b2 b3 hpb b5 b6 hj hi hs hkx hc hsf hne hs0 hsl g2
    refine ⟨_, _, _, ?_, Ext.ofStep (st (fun _ => True)), ?_, Or.inl ⟨_, rfl, st⟩⟩
    · simp only [g1, bind, Except.bind]
      rw [hcnt]; rfl
    · show t1.fresh ≤ _
      have e1 := g2.fresh
      have e2 := g2.l1
      change t1.fresh = t.fresh + m + 1 at e1
      omega
  | notFound pos hpos h1 h2 h3 =>
    by_cases full : leafWidth ≤ size 5 (t.body l).perm
    · have hn24 : (t.body l).n = 24 := Nat.le_antisymm hbd.perm.size_le full
      have hH := height_bound hT (by show t.fresh < _; omega)
      obtain ⟨t1, G1, g1, g2⟩ := handleLeafSplit_ok hT b2 b3 hn24 b5 b6 hH (by omega)
      have g3 := handleLeafSplit_fresh g1
      change t1.fresh ≤ t.fresh + 65 at g3
      obtain ⟨ir', c1, c2⟩ := g2.ghost r ir hr
      refine ⟨t1, _, G1, ?_, Ext.ofSplit g2.ofLock ru idb, by omega,
        Or.inr ⟨k, r, n, ir', rfl, Same.ofSplit g2.ofLock, hk, hn, c1, by rw [c2, hrp], hn0, Or.inl ⟨rfl, rfl⟩, Or.inr (Or.inl hn24)⟩⟩
      simp only [if_pos full, g1, bind, Except.bind]
    · have hn24 : (t.body l).n < 24 := by unfold leafWidth at full; unfold Leaf.n; omega
      have hslot : ¬ (back 5 24 (t.body l).perm = 0 ∧ canReuseSlot0 (lockT t l) l k.ikey = false) := by
        rintro ⟨c1, c2⟩
        cases hpv : t.prev l with
        | none =>
          have hpv' : (lockT t l).prev l = none := hpv
          simp [canReuseSlot0, hpv'] at c2
        | some w =>
          obtain ⟨e1, _, _⟩ := (h.link l il b3 b2).slot0 (by rw [hpv]; simp)
          have : get 5 (t.body l).perm 0 = get 5 (t.body l).perm 23 := by rw [e1]; exact c1.symm
          have := hbd.perm.inj 0 23 (by omega) (by omega) this
          omega
      have st := fun K => (step_insert (K := K) (v := v) h ru idb hk hd b2 b3 hpb hn hn0 b5 b6 hn24 hpos h1 h2 h3).1
      refine ⟨_, _, _, ?_, Ext.ofStep (st (fun _ => True)), ?_, Or.inl ⟨_, rfl, st⟩⟩
      · simp only [if_neg full, if_neg hslot]
      · show t.fresh ≤ _; omega

/-! ## The tree and the inserts completed so far -/

/-- The tree stands for the history `h`. -/
structure Core (h : History V) (t : Tree V) (G : Ghost) : Prop where
  inv : Inv0 t G
  ru : RU t G
  idb : IdB t G
  r0 : R0 G
  sound : ∀ d v, Has t G d v → (d, v) ∈ h
  last : ∀ d v, mapAfter h d = some v → Has t G d v
  lo : distinctKeys h ≤ t.count
  hi : t.count ≤ h.length
  exact : ∀ K, NoClash K → (∀ p, p ∈ h → K p.1) → Exact K h t G
  neat : HiStrict t G → ExactT h t G

theorem core_empty : Core ([] : History V) empty G0 :=
  ⟨reach_empty.inv, reach_empty.ru, reach_empty.idb, (reach_empty (V := V)).r0, reach_empty.sound, reach_empty.last, reach_empty.lo,
    reach_empty.hi, fun K _ _ => exact_empty K, fun _ => exactT_empty⟩

theorem Core.same {h : History V} {t t' : Tree V} {G G' : Ghost} (C : Core h t G) (E : Ext t G t' G') (S : Same t G t' G') :
    Core h t' G' :=
  ⟨E.inv, E.ru, E.idb, E.r0 C.r0, fun d v hv => C.sound d v ((S.has d v).1 hv), fun d v e => (S.has d v).2 (C.last d v e),
    by rw [S.count]; exact C.lo, by rw [S.count]; exact C.hi, fun K hK hh =>
      have X := C.exact K hK hh
      ⟨S.strong K X.strong, fun d v hv => X.exact d v ((S.has d v).1 hv), by rw [S.count]; exact X.count⟩, fun hs =>
      have X := C.neat (E.anti hs)
      ⟨S.neat hs X.neat, fun d v hv => X.exact d v ((S.has d v).1 hv), by rw [S.count]; exact X.count⟩⟩

theorem Core.step {h : History V} {t t' : Tree V} {G G' : Ghost} (C : Core h t G) {k : Bytes} (hk : k.length ≤ 256) {v : V}
    {r : Option V} (P : ∀ K, Step K t G k v r t' G') :
    Core (h ++ [(k, v)]) t' G' ∧ (∀ o, r = some o → (k, o) ∈ h) ∧
      (HiStrict t' G' → r = mapAfter h k) := by
  have g2 := P (fun _ => True)
  have hdist := distinctKeys_snoc h k v
  have nt : HiStrict t' G' → ExactT (h ++ [(k, v)]) t' G' ∧ r = mapAfter h k :=
    fun hs => (C.neat (g2.anti hs)).step C.last C.sound hk g2 hs
  refine ⟨⟨g2.inv, g2.ru, g2.idb, g2.r0 C.r0, ?_, ?_, ?_, ?_, ?_, fun hs => (nt hs).1⟩, fun o ho => C.sound k o (g2.old o ho),
    fun hs => (nt hs).2⟩
  · intro d' v' hv
    rcases g2.sound d' v' hv with c | ⟨rfl, rfl⟩
    · exact List.mem_append_left _ (C.sound d' v' c)
    · simp
  · intro d' v' e
    rw [mapAfter_snoc] at e
    by_cases c : d' = k
    · rw [if_pos c] at e; cases e; subst c; exact g2.new
    · rw [if_neg c] at e; exact g2.keep d' v' c (C.last d' v' e)
  · rw [hdist, g2.count]
    have := C.lo
    cases hr : r with
    | none => simp only [Option.isNone_none, if_true]; split <;> omega
    | some o =>
      have hm := C.sound k o (g2.old o hr)
      rw [if_pos (List.mem_map.2 ⟨_, hm, rfl⟩)]
      omega
  · rw [g2.count, List.length_append, List.length_singleton]
    have := C.hi
    split <;> omega
  · intro K hK hh
    have g2 := P K
    have hKk : K k := hh (k, v) (by simp)
    have S := C.exact K hK (fun p hp => hh p (by simp [hp]))
    have st' := g2.strong hK hKk S.strong
    refine ⟨st', ?_, ?_⟩
    · intro d' v' hv
      rw [mapAfter_snoc]
      by_cases c : d' = k
      · subst c
        rw [if_pos rfl]
        have e1 := get_complete hK st' g2.inv g2.ru hk hv
        have e2 := get_complete hK st' g2.inv g2.ru hk g2.new
        rw [e1] at e2
        cases e2; rfl
      · rw [if_neg c]
        rcases g2.sound d' v' hv with e | ⟨e, _⟩
        · exact S.exact d' v' e
        · exact absurd e c
    · rw [hdist, g2.count, S.count]
      cases hr : r with
      | none =>
        have hm : ¬ k ∈ h.map (·.1) := by
          intro hm
          obtain ⟨v', e⟩ := mapAfter_isSome.2 hm
          exact g2.none hK hKk S.strong hr v' (C.last k v' e)
        rw [if_neg hm]
        rfl
      | some o =>
        have hm := C.sound k o (g2.old o hr)
        rw [if_pos (List.mem_map.2 ⟨_, hm, rfl⟩)]
        simp

/-! ## Threads -/

/-- `k` looks like the key `d` at the layer of depth `n`. -/
def KS (d : Bytes) (k : Key) (n : Nat) : Prop := k.Sees d n ∧ 8 * n ≤ d.length ∧ d.length ≤ 256 ∧ (n = 0 ∨ 8 * n < d.length)

/-- What is left of the key of a call that has lost `m` chunks. -/
def left (o : Op V) (m : Nat) : Bytes := o.key.drop (8 * m)

/-- `k` is the key of `o`, shifted `m + n` times: `m` chunks are lost, `n` have been used in the layers passed since. -/
def KAt (o : Op V) (m : Nat) (k : Key) (n : Nat) : Prop :=
  k.At o.key (m + n) ∧ 8 * (m + n) ≤ o.key.length ∧ o.key.length ≤ 256 ∧ (m + n = 0 ∨ 8 * (m + n) < o.key.length) ∧
    ∀ d, o = .get d → m = 0

theorem KAt.ks {o : Op V} {m : Nat} {k : Key} {n : Nat} (h : KAt o m k n) : KS (left o m) k n := by
  obtain ⟨h1, h2, h3, h4, _⟩ := h
  refine ⟨⟨o.key, m, h1, rfl⟩, ?_⟩
  simp only [left, List.length_drop]
  refine ⟨by omega, by omega, ?_⟩
  rcases h4 with h4 | h4 <;> [left; right] <;> omega

/-- Losing the chunks used so far. -/
theorem KAt.lose {o : Op V} {m : Nat} {k : Key} {n : Nat} (h : KAt o m k n) (hi : ∃ d v, o = .insert d v) :
    KAt o k.shiftCount k 0 := by
  obtain ⟨h1, h2, h3, h4, _⟩ := h
  refine ⟨by rw [h1.shiftCount_eq]; exact h1, by rw [h1.shiftCount_eq]; exact h2, h3, by rw [h1.shiftCount_eq]; exact h4, ?_⟩
  obtain ⟨d, v, rfl⟩ := hi
  intro d e; cases e

theorem KAt.shifted {o : Op V} {m : Nat} {k : Key} {n : Nat} (h : KAt o m k n) (h' : KS (left o m) k.shift (n + 1)) :
    KAt o m k.shift (n + 1) := by
  obtain ⟨h1, h2, h3, h4, h5⟩ := h
  obtain ⟨_, g2, _, g4⟩ := h'
  simp only [left, List.length_drop] at g2 g4
  exact ⟨h1.shift, by omega, h3, by omega, h5⟩

theorem left_get (d : Bytes) : left (.get d : Op V) 0 = d := rfl

/-- Node `p` belongs to a layer for the first `n` chunks of `d`. -/
def InLayer (G : Ghost) (d : Bytes) (n p : Nat) : Prop := ∃ i, G p = some i ∧ i.pfx.bytes = d.take (8 * n)

/-- And its lower bound does not exceed `ik`. -/
def InLow (G : Ghost) (d : Bytes) (n ik p : Nat) : Prop := ∃ i, G p = some i ∧ i.pfx.bytes = d.take (8 * n) ∧ i.lo ≤ ik

/-- What a thread relies on whose call has lost `m` chunks of its key. -/
def TOk (t : Tree V) (G : Ghost) (m : Nat) : Pc V → Prop
  | .idle => True
  | .climb o k p => ∃ n, KAt o m k n ∧ InLayer G (left o m) n p
  | .desc o k r p => ∃ n, KAt o m k n ∧ InLow G (left o m) n k.ikey r ∧ InLow G (left o m) n k.ikey p
  | .adv o k r h l => (∃ d v, o = .insert d v) ∧
      ∃ n, KAt o m k n ∧ InLow G (left o m) n k.ikey r ∧ InLow G (left o m) n k.ikey l ∧ t.kind l = some .leaf
  | .sect o k r l => (∃ d v, o = .insert d v) ∧
      ∃ n, KAt o m k n ∧ InLow G (left o m) n k.ikey r ∧ InLow G (left o m) n k.ikey l ∧ t.kind l = some .leaf
  | .look o k l => (∃ d, o = .get d) ∧ ∃ n, KAt o m k n ∧ InLow G (left o m) n k.ikey l ∧ t.kind l = some .leaf
  | .next o k l => (∃ d, o = .get d) ∧ ∃ n, KAt o m k n ∧ InLow G (left o m) n k.ikey l ∧ t.kind l = some .leaf
  | .done _ _ => True
  | .fail o e => e = .panic ∧ 256 < o.key.length

theorem Ext.inLayer {t t' : Tree V} {G G' : Ghost} (E : Ext t G t' G') {d : Bytes} {n p : Nat} (h : InLayer G d n p) :
    InLayer G' d n p := by
  obtain ⟨i, h1, h2⟩ := h
  obtain ⟨i', g1, g2, _⟩ := E.low p i h1
  exact ⟨i', g1, by rw [g2, h2]⟩

theorem Ext.inLow {t t' : Tree V} {G G' : Ghost} (E : Ext t G t' G') {d : Bytes} {n ik p : Nat} (h : InLow G d n ik p) :
    InLow G' d n ik p := by
  obtain ⟨i, h1, h2, h3⟩ := h
  obtain ⟨i', g1, g2, g3, _⟩ := E.low p i h1
  exact ⟨i', g1, by rw [g2, h2], by rw [g3]; exact h3⟩

theorem InLow.lt {t : Tree V} {G : Ghost} (I : Inv0 t G) {d : Bytes} {n ik p : Nat} (h : InLow G d n ik p) : p < t.fresh := by
  obtain ⟨i, h1, _⟩ := h
  exact I.lt h1

/-- A thread is not disturbed by the others. -/
theorem TOk.ext {t t' : Tree V} {G G' : Ghost} (I : Inv0 t G) (E : Ext t G t' G') {m : Nat} {c : Pc V} (h : TOk t G m c) :
    TOk t' G' m c := by
  cases c with
  | idle => trivial
  | climb o k p => obtain ⟨n, h1, h2⟩ := h; exact ⟨n, h1, E.inLayer h2⟩
  | desc o k r p => obtain ⟨n, h1, h2, h3⟩ := h; exact ⟨n, h1, E.inLow h2, E.inLow h3⟩
  | adv o k r f l =>
    obtain ⟨h0, n, h1, h2, h3, h4⟩ := h
    exact ⟨h0, n, h1, E.inLow h2, E.inLow h3, by rw [E.kind l (h3.lt I), h4]⟩
  | sect o k r l =>
    obtain ⟨h0, n, h1, h2, h3, h4⟩ := h
    exact ⟨h0, n, h1, E.inLow h2, E.inLow h3, by rw [E.kind l (h3.lt I), h4]⟩
  | look o k l =>
    obtain ⟨h0, n, h1, h3, h4⟩ := h
    exact ⟨h0, n, h1, E.inLow h3, by rw [E.kind l (h3.lt I), h4]⟩
  | next o k l =>
    obtain ⟨h0, n, h1, h3, h4⟩ := h
    exact ⟨h0, n, h1, E.inLow h3, by rw [E.kind l (h3.lt I), h4]⟩
  | done o r => trivial
  | fail o e => exact h

/-- The child chosen has a lower bound not above the chunk, even if the chunk is beyond the node. -/
theorem pick_low {t : Tree V} {E : Ghost} {x : Nat} {a : Arr (Option Nat)} {i : Info} (h : InodeOK t E x a i) {ik : Nat}
    (hr : i.lo ≤ ik) : KSearch.upperBoundDirect ik a.nkeys a.ikey ≤ a.nkeys ∧
      clo a i.lo (KSearch.upperBoundDirect ik a.nkeys a.ikey) ≤ ik := by
  have H := KSearch.upperLoop_spec (key := a.ikey) (t := ik) (pg := id) (n := a.nkeys)
    (by
      intro i j hij hj
      rcases Nat.lt_or_eq_of_le hij with h' | h'
      · exact h.sorted i j h' hj
      · subst h'; exact Nat.le_refl _) 0 a.nkeys (by omega) (by omega)
    (fun i h => by omega) (fun i h1 h2 => by omega)
  unfold KSearch.upperBoundDirect
  generalize KSearch.upperLoop id (fun s => compare ik (a.ikey s)) 0 a.nkeys = j at *
  simp only [id] at H
  unfold clo
  rcases H with ⟨h1, h2, h3⟩ | ⟨h1, h2, h3⟩
  · refine ⟨h1, ?_⟩
    split
    · exact hr
    · exact Nat.le_of_lt (h2 _ (by omega))
  · refine ⟨h2, ?_⟩
    rw [if_neg (by omega), h3]

/-- One node to the right. -/
theorem right_ok {t : Tree V} {G : Ghost} (I : Inv0 t G) {d : Bytes} {n ik l q : Nat} (h : InLow G d n ik l)
    (hk : t.kind l = some .leaf) (hq : t.next l = some q) :
    ∃ nb, ikeyBound t q = .ok nb ∧ (nb ≤ ik → InLow G d n ik q ∧ t.kind q = some .leaf) ∧
      ∀ il, G l = some il → il.hi = some nb := by
  obtain ⟨il, h1, h2, h3⟩ := h
  obtain ⟨iq, hn, hb⟩ := next_bound I hk h1 hq
  refine ⟨iq.lo, hb, fun hle => ⟨⟨iq, hn.dom, by rw [hn.pfx, h2], hle⟩, hn.kind⟩, ?_⟩
  intro il' h'
  rw [h1] at h'; cases h'
  exact hn.lo

/-- What a lookup finds in a leaf. -/
theorem look_ok {t : Tree V} {G : Ghost} (I : Inv0 t G) (ru : RU t G) {d : Bytes} {n : Nat} {k : Key} {l : Nat}
    (hk : KS d k n) (h : InLow G d n k.ikey l) (hl : t.kind l = some .leaf) (o : Op V) :
    (∃ v, lookStep t o k l = .done o (some v) ∧ Has t G d v) ∨
    (∃ q, lookStep t o k l = .climb o k.shift q ∧ KS d k.shift (n + 1) ∧ InLayer G d (n + 1) q) ∨
    (lookStep t o k l = .next o k l ∧ ∀ il, G l = some il → ltHi k.ikey il.hi →
      Neat t G → ∀ v, ¬ Has t G d v) := by
  obtain ⟨il, h1, h2, h3⟩ := h
  obtain ⟨hk, hn, hd, hn0⟩ := hk
  have hb := I.body l il hl h1
  have hlf : leafAt t l = .ok (t.body l) := by simp [leafAt, hl]
  rcases search_get_spec hb k with ⟨j, g1, g2, g3⟩ | ⟨g1, g2⟩
  · have hc0 : ((t.body l).ent j).cell = (t.body l).cell (get 5 (t.body l).perm j) := rfl
    have hk0 : ((t.body l).ent j).klx = (t.body l).klx (get 5 (t.body l).perm j) := rfl
    have val : ∀ v, ((t.body l).ent j).klx < 128 → ((t.body l).ent j).cell = .val v →
        lookStep t o k l = .done o (some v) ∧ Has t G d v := by
      intro v e1 e2
      refine ⟨?_, l, il, j, h1, hl, g1, e2, by rw [h2]; exact entKey_of_matches hk rfl g3 (by omega)⟩
      rw [hk0] at e1; rw [hc0] at e2
      simp only [lookStep, hlf, g2, layerKeylenx, if_neg (show ¬ 128 ≤ (t.body l).klx (get 5 (t.body l).perm j) by omega), e2]
    cases hb.ok j g1 with
    | inline h4 v h5 => exact Or.inl ⟨v, val v (by omega) h5⟩
    | suffix h4 v h5 s hs _ _ => exact Or.inl ⟨v, val v (by omega) h5⟩
    | layer h4 q h5 =>
      refine Or.inr (Or.inl ⟨q, ?_, ?_⟩)
      · have e1 := h4
        have e2 := h5
        rw [hk0] at e1; rw [hc0] at e2
        simp only [lookStep, hlf, g2, layerKeylenx, e1, Nat.le_refl, if_true, e2]
      · have hs : k.hasSuffix = true := by
          rcases g3.2 with h | h
          · rcases searchKlx_cases k with ⟨a1, a2, _⟩ | ⟨a1, a2, a3, _⟩
            · exact a1
            · omega
          · exact h.2
        have hlen : 8 * n + 8 < d.length := by
          have := hk.hasSuffix
          rw [hs] at this
          have := of_decide_eq_true this.symm
          simp at this; omega
        exact ⟨⟨hk.shift, by omega, hd, Or.inr (by omega)⟩, layer_pfx (I.layer l il hl h1) g1 h5 hk h2 hlen g3.1⟩
  · refine Or.inr (Or.inr ⟨by simp only [lookStep, hlf, g1], ?_⟩)
    intro il' e hlt S v hv
    rw [h1] at e; cases e
    obtain ⟨en, e1, e2, _⟩ := S.path_entry I ru hv hn0 ⟨l, il, h1, h2⟩ hk
    obtain ⟨j, hj, hje⟩ := S.in_leaf I ru e1 h1 hl h2 (by rw [e2.1]; exact h3) (by rw [e2.1]; exact hlt)
    exact g2 j hj (by rw [hje]; exact e2)

/-- How many chunks are lost after the step. -/
def lose (fixed : Bool) (c : Pc V) (m : Nat) : Nat :=
  match c with
  | .adv _ k _ 0 _ => if fixed then m else k.shiftCount
  | _ => m

/-- The insert that returns in a step, with what is left of its key. -/
def done1 (m : Nat) (c c' : Pc V) : History V := ((completed c c').map fun p => (p.1.drop (8 * m), p.2)).toList

/-- What a step of a thread does. -/
def StepOk (fixed : Bool) (h : History V) (t : Tree V) (G : Ghost) (m : Nat) (c : Pc V) : Prop :=
  ∃ G', Ext t G (step fixed t c).1 G' ∧ (step fixed t c).1.fresh ≤ t.fresh + 100 ∧
    TOk (step fixed t c).1 G' (lose fixed c m) (step fixed t c).2 ∧
    Core (h ++ done1 m c (step fixed t c).2) (step fixed t c).1 G' ∧
    (∀ d v x, (∀ o y, c ≠ .done o y) → (step fixed t c).2 = .done (.insert d v) x → completed c (step fixed t c).2 = some (d, v) ∧
      d.length ≤ 256 ∧ (∀ o, x = some o → (d.drop (8 * m), o) ∈ h) ∧
      (HiStrict (step fixed t c).1 G' → x = mapAfter h (d.drop (8 * m))))

/-- One step of a thread: the tree stands for the history so far, and the thread keeps what it relies on. -/
theorem step_ok (fixed : Bool) {h : History V} {t : Tree V} {G : Ghost} (C : Core h t G) (hfr : t.fresh + 100 < 8 ^ 50) {m : Nat}
    {c : Pc V} (T : TOk t G m c) : StepOk fixed h t G m c := by
  have I := C.inv
  have quiet : ∀ c', step fixed t c = (t, c') → TOk t G (lose fixed c m) c' → completed c c' = none →
      (∀ d v x, (∀ o y, c ≠ .done o y) → c' ≠ .done (.insert d v) x) → StepOk fixed h t G m c := by
    intro c' e1 e2 e3 e4
    unfold StepOk
    rw [e1]
    refine ⟨G, Ext.refl I C.ru C.idb, by show t.fresh ≤ _; omega, e2, ?_, ?_⟩
    · simp only [done1, e3]; simpa using C
    · intro d v x hc e
      exact absurd e (e4 d v x hc)
  cases c with
  | idle => exact quiet .idle rfl trivial rfl (fun _ _ _ _ => by simp)
  | done o r => exact quiet (.done o r) rfl trivial rfl (fun _ _ _ hc => absurd rfl (hc o r))
  | fail o e => exact quiet (.fail o e) rfl T rfl (fun _ _ _ _ => by simp)
  | climb o k p =>
    obtain ⟨n, hk, i, h1, h2⟩ := T
    obtain ⟨kd, hkd⟩ : ∃ kd, t.kind p = some kd := by
      rcases I.kind_cases h1 with e | e <;> exact ⟨_, e⟩
    cases hp : t.parent p with
    | none =>
      have hlo := ((I.up p i h1).top hp).2.1
      have : InLow G (left o m) n k.ikey p := ⟨i, h1, h2, by omega⟩
      exact quiet (.desc o k p p) (by simp only [step, hkd, hp]) ⟨n, hk, this, this⟩ rfl (fun _ _ _ _ => by simp)
    | some q =>
      obtain ⟨ip, j, g1, g2, g3, g4, g5⟩ := I.up_child (E := G) h1 hp
      refine quiet (.climb o k q) (by simp only [step, hkd, hp]) ⟨n, hk, ip, g1, ?_⟩ rfl (fun _ _ _ _ => by simp)
      rw [← g5.pfx, h2]; rfl
  | desc o k r p =>
    obtain ⟨n, hk, hr, hp⟩ := T
    obtain ⟨i, h1, h2, h3⟩ := id hp
    rcases I.kind_cases h1 with e | e
    · cases o with
      | get d => exact quiet (.look (.get d) k p) (by simp only [step, e]) ⟨⟨d, rfl⟩, n, hk, hp, e⟩ rfl (fun _ _ _ _ => by simp)
      | insert d v =>
        exact quiet (.adv (.insert d v) k r maxBlinkHops p) (by simp only [step, e]) ⟨⟨d, v, rfl⟩, n, hk, hr, hp, e⟩ rfl
          (fun _ _ _ _ => by simp)
    · have hin := I.inode p i e h1
      obtain ⟨a1, a2⟩ := pick_low hin h3
      obtain ⟨c, ic, hc⟩ := hin.child _ a1
      refine quiet (.desc o k r c) (by simp only [step, e, hc.eq]) ⟨n, hk, hr, ic, hc.dom, ?_, ?_⟩ rfl (fun _ _ _ _ => by simp)
      · rw [hc.pfx, h2]; rfl
      · rw [hc.lo]; exact a2
  | adv o k r f l =>
    obtain ⟨h0, n, hk, hr, hl, hkd⟩ := T
    cases f with
    | zero =>
      refine quiet (.climb o k (if fixed then r else t.root)) rfl ?_ rfl (fun _ _ _ _ => by simp)
      by_cases hf : fixed = true
      · obtain ⟨i, a1, a2, _⟩ := hr
        simp only [lose, if_pos hf]
        exact ⟨n, hk, i, a1, a2⟩
      · obtain ⟨i, hi, hp, _⟩ := I.root
        simp only [lose, if_neg hf]
        exact ⟨0, hk.lose h0, i, hi, by rw [hp]; simp⟩
    | succ f =>
      cases hnx : t.next l with
      | none =>
        exact quiet (.sect o k r l) (by simp only [step, hnx]) ⟨h0, n, hk, hr, hl, hkd⟩ rfl (fun _ _ _ _ => by simp)
      | some q =>
        obtain ⟨nb, b1, b2, _⟩ := right_ok I hl hkd hnx
        by_cases hle : nb ≤ k.ikey
        · exact quiet (.adv o k r f q) (by simp only [step, hnx, b1, if_pos hle]) ⟨h0, n, hk, hr, (b2 hle).1, (b2 hle).2⟩ rfl
            (fun _ _ _ _ => by simp)
        · exact quiet (.sect o k r l) (by simp only [step, hnx, b1, if_neg hle]) ⟨h0, n, hk, hr, hl, hkd⟩ rfl
            (fun _ _ _ _ => by simp)
  | look o k l =>
    obtain ⟨⟨d, rfl⟩, n, hk, hl, hkd⟩ := T
    have e : step fixed t (.look (.get d) k l) = (t, lookStep t (.get d) k l) := rfl
    rcases look_ok I C.ru hk.ks hl hkd (.get d) with ⟨v, b1, _⟩ | ⟨q, b1, b2, b3⟩ | ⟨b1, _⟩
    · exact quiet (.done (.get d) (some v)) (by rw [e, b1]) trivial rfl (fun _ _ _ _ => by simp)
    · exact quiet (.climb (.get d) k.shift q) (by rw [e, b1]) ⟨n + 1, hk.shifted b2, b3⟩ rfl (fun _ _ _ _ => by simp)
    · exact quiet (.next (.get d) k l) (by rw [e, b1]) ⟨⟨d, rfl⟩, n, hk, hl, hkd⟩ rfl (fun _ _ _ _ => by simp)
  | next o k l =>
    obtain ⟨⟨d, rfl⟩, n, hk, hl, hkd⟩ := T
    cases hnx : t.next l with
    | none => exact quiet (.done (.get d) none) (by simp only [step, hnx]) trivial rfl (fun _ _ _ _ => by simp)
    | some q =>
      obtain ⟨nb, b1, b2, _⟩ := right_ok I hl hkd hnx
      by_cases hle : nb ≤ k.ikey
      · exact quiet (.look (.get d) k q) (by simp only [step, hnx, b1, if_pos hle]) ⟨⟨d, rfl⟩, n, hk, (b2 hle).1, (b2 hle).2⟩ rfl
          (fun _ _ _ _ => by simp)
      · exact quiet (.done (.get d) none) (by simp only [step, hnx, b1, if_neg hle]) trivial rfl (fun _ _ _ _ => by simp)
  | sect o k r l =>
    obtain ⟨⟨d, v, rfl⟩, n, hk, ⟨ir, r1, r2, r3⟩, ⟨il, l1, l2, l3⟩, hkd⟩ := T
    clear quiet
    obtain ⟨hk1, hk2, hk3, hk4⟩ := hk.ks
    obtain ⟨t', nx, G', e1, e2, e3, e4⟩ := crit_ok I C.ru C.idb hk1 hk2 hk4 hk3 v r1 r2 l1 hkd l2 l3 hfr
    rcases e4 with ⟨x, rfl, P⟩ | ⟨k', lr, n', ilr, rfl, S, g1, g2, g3, g4, g5, g6, _⟩
    · have e : step fixed t (.sect (.insert d v) k r l) = (t', .done (.insert d v) x) := by simp only [step, e1]
      unfold StepOk
      rw [e]
      obtain ⟨c1, c2, c3⟩ := C.step hk3 P
      refine ⟨G', e2, e3, trivial, c1, ?_⟩
      intro d' v' x' _ e
      cases e
      exact ⟨rfl, hk.2.2.1, c2, c3⟩
    · have e : step fixed t (.sect (.insert d v) k r l) = (t', .climb (.insert d v) k' lr) := by simp only [step, e1]
      unfold StepOk
      rw [e]
      have hk' : KAt (.insert d v) m k' n' := by
        rcases g6 with ⟨rfl, rfl⟩ | ⟨rfl, rfl⟩
        · exact hk
        · exact hk.shifted ⟨g1, g2, hk3, g5⟩
      refine ⟨G', e2, e3, ⟨n', hk', ilr, g3, g4⟩, by simpa [completed, done1] using C.same e2 S, ?_⟩
      intro d' v' x' _ e
      cases e

theorem begin_ok {h : History V} {t : Tree V} {G : Ghost} (C : Core h t G) (o : Op V) : TOk t G 0 (begin t o) := by
  unfold begin
  by_cases hd : o.key.length ≤ 256
  · have hnew : Key.new? o.key = some (Key.mk' o.key) := by simp [Key.new?, maxKeyLength, hd]
    rw [hnew]
    obtain ⟨i, hi, hp, _⟩ := C.inv.root
    exact ⟨0, ⟨Key.mk'_at _, by omega, hd, Or.inl rfl, fun _ _ => rfl⟩, i, hi, by simpa using hp⟩
  · have hnew : Key.new? o.key = none := by simp [Key.new?, maxKeyLength, hd]
    rw [hnew]
    exact ⟨rfl, by omega⟩

/-! ## Executions -/

/-- State of the whole machine after `n` steps, the inserts in `h` having returned and `m` chunks being lost. -/
structure World (h : History V) (s : St V) (m : Nat → Nat) (G : Ghost) (n : Nat) : Prop where
  core : Core h s.tree G
  fresh : s.tree.fresh ≤ 1 + 100 * n
  ok : ∀ i, TOk s.tree G (m i) (s.pc i)

/-- The insert that returns in an action. -/
def news (m : Nat → Nat) (s s' : St V) : Act V → History V
  | .run i => done1 (m i) (s.pc i) (s'.pc i)
  | .call _ _ => []

theorem losing_run (fixed : Bool) (s : St V) (m : Nat → Nat) (i : Nat) : losing fixed s (.run i) m i = lose fixed (s.pc i) (m i) := by
  simp only [losing, if_true, lose]
  generalize s.pc i = c
  cases c with
  | adv o k r f l => cases f <;> rfl
  | _ => rfl

theorem losing_other (fixed : Bool) (s : St V) (m : Nat → Nat) {i j : Nat} (h : i ≠ j) : losing fixed s (.run j) m i = m i := by
  simp only [losing, if_neg h]

theorem World.act (fixed : Bool) {h : History V} {s : St V} {m : Nat → Nat} {G : Ghost} {n : Nat} (W : World h s m G n)
    (hn : n < 2 ^ 128) (a : Act V) :
    ∃ G', Ext s.tree G (act fixed s a).tree G' ∧
      World (h ++ news m s (act fixed s a) a) (act fixed s a) (losing fixed s a m) G' (n + 1) := by
  have C := W.core
  have hfr := W.fresh
  cases a with
  | call i o =>
    refine ⟨G, ?_, ?_⟩
    · have : (Threads.act fixed s (.call i o)).tree = s.tree := by
        simp only [Threads.act]; split <;> rfl
      rw [this]; exact Ext.refl C.inv C.ru C.idb
    · have other : ∀ i', i' ≠ i → losing fixed s (.call i o) m i' = m i' := by
        intro i' e
        simp only [losing, if_neg e]
      have key : losing fixed s (.call i o) m i = 0 →
          World h { s with pc := upd s.pc i (begin s.tree o) } (losing fixed s (.call i o) m) G (n + 1) := by
        intro hz
        refine ⟨C, by show s.tree.fresh ≤ _; omega, fun i' => ?_⟩
        show TOk s.tree G _ (upd s.pc i (begin s.tree o) i')
        by_cases e : i' = i
        · subst e; rw [upd_same, hz]; exact begin_ok C o
        · rw [upd_ne _ _ _ e, other i' e]; exact W.ok i'
      have stay : losing fixed s (.call i o) m i = m i → World h s (losing fixed s (.call i o) m) G (n + 1) := by
        intro hz
        refine ⟨C, by omega, fun i' => ?_⟩
        by_cases e : i' = i
        · subst e; rw [hz]; exact W.ok _
        · rw [other i' e]; exact W.ok i'
      simp only [news, List.append_nil]
      simp only [Threads.act]
      split
      · exact key (by simp only [losing, if_true, *])
      · exact key (by simp only [losing, if_true, *])
      · exact stay (by simp only [losing, if_true, *])
  | run i =>
    obtain ⟨G', e1, e2, e3, e4, _⟩ := step_ok fixed C (by omega) (W.ok i)
    refine ⟨G', e1, ⟨?_, by show _ ≤ _; exact Nat.le_trans e2 (by omega), fun i' => ?_⟩⟩
    · simp only [news, Threads.act, upd_same]; exact e4
    · show TOk _ G' _ (upd s.pc i _ i')
      by_cases e : i' = i
      · subst e; rw [upd_same, losing_run]; exact e3
      · rw [upd_ne _ _ _ e, losing_other fixed s m e]; exact (W.ok i').ext C.inv e1

theorem stored_succ {fixed : Bool} {σ : Nat → St V} {α : Nat → Act V} (E : Exec fixed σ α) (n : Nat) :
    stored fixed σ α (n + 1) =
      stored fixed σ α n ++ news (lost fixed σ α n) (σ n) (act fixed (σ n) (α n)) (α n) := by
  rw [← E.next n]
  simp only [stored, news, done1]
  cases α n <;> rfl

theorem exec_ok {fixed : Bool} {σ : Nat → St V} {α : Nat → Act V} (E : Exec fixed σ α) (n : Nat) (hn : n ≤ 2 ^ 128) :
    ∃ G, World (stored fixed σ α n) (σ n) (lost fixed σ α n) G n := by
  induction n with
  | zero =>
    refine ⟨G0, ?_, ?_, ?_⟩
    · rw [E.start]; exact core_empty
    · rw [E.start]; exact Nat.le_refl _
    · intro i; rw [E.start]; trivial
  | succ n ih =>
    obtain ⟨G, W⟩ := ih (by omega)
    obtain ⟨G', _, W'⟩ := W.act fixed (by omega) (α n)
    rw [← stored_succ E n, ← E.next n] at W'
    exact ⟨G', W'⟩

theorem stored_mono {fixed : Bool} {σ : Nat → St V} {α : Nat → Act V} (E : Exec fixed σ α) {m n : Nat} (h : m ≤ n) :
    ∃ l, stored fixed σ α n = stored fixed σ α m ++ l := by
  induction n with
  | zero => have : m = 0 := by omega
            subst this; exact ⟨[], by simp⟩
  | succ n ih =>
    rcases Nat.lt_or_eq_of_le h with h | h
    · obtain ⟨l, hl⟩ := ih (by omega)
      exact ⟨l ++ news (lost fixed σ α n) (σ n) (act fixed (σ n) (α n)) (α n), by rw [stored_succ E, hl, List.append_assoc]⟩
    · subst h; exact ⟨[], by simp⟩

/-- Nothing is lost as long as no insert runs out of hops in a sublayer. -/
theorem lost_calm {fixed : Bool} {σ : Nat → St V} {α : Nat → Act V} (n : Nat) (calm : fixed = true ∨ NoOverrun σ n) (i : Nat) :
    lost fixed σ α n i = 0 := by
  induction n generalizing i with
  | zero => rfl
  | succ n ih =>
    have ih := ih (calm.imp id (fun c j hj => c j (by omega)))
    simp only [lost, losing]
    split
    · split
      · split
        · rfl
        · rfl
        · exact ih i
      · exact ih i
    · split
      · split
        · rename_i h
          split
          · exact ih i
          · rename_i hf
            exact (calm.resolve_left hf) n (by omega) _ _ _ _ _ h
        · exact ih i
      · exact ih i

theorem stored_calm {fixed : Bool} {σ : Nat → St V} {α : Nat → Act V} (n : Nat) (calm : fixed = true ∨ NoOverrun σ n) :
    stored fixed σ α n = returned σ α n := by
  induction n with
  | zero => rfl
  | succ n ih =>
    have calm' : fixed = true ∨ NoOverrun σ n := calm.imp id (fun c j hj => c j (by omega))
    simp only [stored, returned, ih calm']
    congr 1
    cases α n with
    | call i o => rfl
    | run i =>
      simp only [lost_calm n calm' i]
      cases completed ((σ n).pc i) ((σ (n + 1)).pc i) <;> rfl

theorem returned_mono (σ : Nat → St V) (α : Nat → Act V) {m n : Nat} (h : m ≤ n) :
    ∃ l, returned σ α n = returned σ α m ++ l := by
  induction n with
  | zero => have : m = 0 := by omega
            subst this; exact ⟨[], by simp⟩
  | succ n ih =>
    rcases Nat.lt_or_eq_of_le h with h | h
    · obtain ⟨l, hl⟩ := ih (by omega)
      exact ⟨l ++ _, by rw [returned, hl, List.append_assoc]⟩
    · subst h; exact ⟨[], by simp⟩

/-! ## The call a thread is working on -/

theorem step_op (fixed : Bool) (t : Tree V) (c : Pc V) : (step fixed t c).2.op? = c.op? := by
  cases c with
  | idle => rfl
  | done => rfl
  | fail => rfl
  | climb => simp only [step]; repeat' split
             all_goals rfl
  | desc => simp only [step]; repeat' split
            all_goals rfl
  | adv o k r f l =>
    cases f with
    | zero => rfl
    | succ f => simp only [step]; repeat' split
                all_goals rfl
  | sect o k r l =>
    cases o with
    | get d => rfl
    | insert d v => simp only [step]; repeat' split
                    all_goals rfl
  | look => simp only [step, lookStep]; repeat' split
            all_goals rfl
  | next => simp only [step]; repeat' split
            all_goals rfl

theorem op_called {fixed : Bool} {σ : Nat → St V} {α : Nat → Act V} (E : Exec fixed σ α) (n : Nat) :
    ∀ i o, ((σ n).pc i).op? = some o → ∃ j, j < n ∧ α j = .call i o := by
  induction n with
  | zero => intro i o h; rw [E.start] at h; cases h
  | succ n ih =>
    intro i o h
    rw [E.next n] at h
    have old : ((σ n).pc i).op? = some o → ∃ j, j < n + 1 ∧ α j = .call i o := fun h => by
      obtain ⟨j, h1, h2⟩ := ih i o h
      exact ⟨j, by omega, h2⟩
    cases ha : α n with
    | run i' =>
      rw [ha] at h
      by_cases e : i = i'
      · subst e
        simp only [act, upd_same, step_op] at h
        exact old h
      · have : (act fixed (σ n) (.run i')).pc i = (σ n).pc i := upd_ne _ _ _ e
        rw [this] at h
        exact old h
    | call i' o' =>
      rw [ha] at h
      have key : ((upd (σ n).pc i' (begin (σ n).tree o')) i).op? = some o → ∃ j, j < n + 1 ∧ α j = .call i o := by
        intro h
        by_cases e : i = i'
        · subst e
          rw [upd_same] at h
          have : (begin (σ n).tree o').op? = some o' := by unfold begin; split <;> rfl
          rw [this] at h
          cases h
          exact ⟨n, by omega, ha⟩
        · rw [upd_ne _ _ _ e] at h
          exact old h
      simp only [act] at h
      split at h <;> first | exact key h | exact old h

/-- Chunks are lost only at the hop limit. -/
theorem lost_source {σ : Nat → St V} {α : Nat → Act V} (E : Exec false σ α) (n : Nat) :
    ∀ i {o : Op V}, 0 < lost false σ α n i → ((σ n).pc i).op? = some o →
      ∃ j k r l, j < n ∧ (σ j).pc i = .adv o k r 0 l ∧ k.shiftCount = lost false σ α n i := by
  induction n with
  | zero => intro i o h; exact absurd h (Nat.lt_irrefl _)
  | succ n ih =>
    intro i o hpos hop
    have old : lost false σ α (n + 1) i = lost false σ α n i → ((σ n).pc i).op? = some o →
        ∃ j k r l, j < n + 1 ∧ (σ j).pc i = .adv o k r 0 l ∧ k.shiftCount = lost false σ α (n + 1) i := by
      intro e h
      rw [e] at hpos ⊢
      obtain ⟨j, k, r, l, h1, h2, h3⟩ := ih i hpos h
      exact ⟨j, k, r, l, by omega, h2, h3⟩
    have hs : lost false σ α (n + 1) i = losing false (σ n) (α n) (lost false σ α n) i := rfl
    rw [E.next n] at hop
    cases ha : α n with
    | run i' =>
      rw [ha] at hop hs
      by_cases e : i = i'
      · subst e
        simp only [act, upd_same, step_op] at hop
        rw [losing_run] at hs
        unfold lose at hs
        split at hs
        · rename_i o' k r l hc
          rw [hc] at hop
          cases hop
          simp only [Bool.false_eq_true, if_false] at hs
          exact ⟨n, k, r, l, by omega, hc, hs.symm⟩
        · exact old hs hop
      · have : (act false (σ n) (.run i')).pc i = (σ n).pc i := upd_ne _ _ _ e
        rw [this] at hop
        rw [losing_other _ _ _ e] at hs
        exact old hs hop
    | call i' o' =>
      rw [ha] at hop hs
      by_cases e : i = i'
      · subst e
        simp only [losing, if_true] at hs
        split at hs
        · omega
        · omega
        · rename_i h1 h2
          have : act false (σ n) (.call i o') = σ n := by
            simp only [act]
          rw [this] at hop
          exact old hs hop
      · have : (act false (σ n) (.call i' o')).pc i = (σ n).pc i := by
          simp only [act]
          split <;> first | rfl | exact upd_ne _ _ _ e
        rw [this] at hop
        simp only [losing, if_neg e] at hs
        exact old hs hop

/-- Keys of at most eight bytes never leave the first layer. -/
theorem noOverrun_short {fixed : Bool} {σ : Nat → St V} {α : Nat → Act V} (E : Exec fixed σ α) (n : Nat) (hn : n ≤ 2 ^ 128)
    (hs : ∀ j i d v, j < n → α j = .call i (.insert d v) → d.length ≤ 8) : NoOverrun σ n := by
  intro j hj i o k r l hpc
  obtain ⟨G, W⟩ := exec_ok E j (by omega)
  have T := W.ok i
  rw [hpc] at T
  obtain ⟨⟨d, v, rfl⟩, m, ⟨k1, k2, k3, k4, _⟩, _⟩ := T
  obtain ⟨j', h1, h2⟩ := op_called E j i (.insert d v) (by rw [hpc]; rfl)
  have h3 := hs j' i d v (by omega) h2
  have h4 : (Op.insert d v).key = d := rfl
  rw [h4] at k4
  rw [k1.shiftCount_eq]
  omega

/-! ## Lookups -/

/-- What is known about a thread that is looking up `d`: `A` says that the key has been absent at some time since the call,
`B r` that `r` has been the binding at some time since the call. -/
def GK (G : Ghost) (d : Bytes) (A : Prop) (B : Option V → Prop) : Pc V → Prop
  | .idle => False
  | .climb o _ _ => o = .get d
  | .desc o _ _ _ => o = .get d
  | .adv o _ _ _ _ => o = .get d
  | .sect o _ _ _ => o = .get d
  | .look o _ _ => o = .get d
  | .next o k l => o = .get d ∧ (A ∨ ∃ il, G l = some il ∧ ¬ ltHi k.ikey il.hi)
  | .done o r => o = .get d ∧ B r
  | .fail o _ => o = .get d

theorem GK.mono {G : Ghost} {d : Bytes} {A A' : Prop} {B B' : Option V → Prop} {c : Pc V} (h : GK G d A B c) (hA : A → A')
    (hB : ∀ r, B r → B' r) : GK G d A' B' c := by
  cases c <;> simp only [GK] at h ⊢ <;> first | exact h | exact ⟨h.1, h.2.imp hA id⟩ | exact ⟨h.1, hB _ h.2⟩

theorem GK.ext {t t' : Tree V} {G G' : Ghost} (E : Ext t G t' G') {d : Bytes} {A : Prop} {B : Option V → Prop} {c : Pc V}
    (h : GK G d A B c) : GK G' d A B c := by
  cases c <;> simp only [GK] at h ⊢ <;> try exact h
  refine ⟨h.1, h.2.imp id ?_⟩
  rintro ⟨il, h1, h2⟩
  obtain ⟨i', g1, _, _, g4⟩ := E.low _ il h1
  exact ⟨i', g1, fun c => h2 (g4 _ c)⟩

theorem GK.step (fixed : Bool) {h : History V} {t : Tree V} {G : Ghost} (C : Core h t G) {m : Nat} {c : Pc V}
    (T : TOk t G m c) {d : Bytes} {A : Prop} {B : Option V → Prop} (g : GK G d A B c) (X : ExactT h t G)
    (hA : mapAfter h d = none → A) (hB : B (mapAfter h d)) (hAB : A → B none) :
    (Threads.step fixed t c).1 = t ∧ GK G d A B (Threads.step fixed t c).2 := by
  have I := C.inv
  cases c with
  | idle => exact absurd g id
  | done o r => exact ⟨rfl, g⟩
  | fail o e => exact ⟨rfl, g⟩
  | climb o k p =>
    simp only [GK] at g; subst g
    simp only [Threads.step]
    repeat' split
    all_goals exact ⟨rfl, rfl⟩
  | desc o k r p =>
    simp only [GK] at g; subst g
    simp only [Threads.step]
    repeat' split
    all_goals exact ⟨rfl, rfl⟩
  | adv o k r f l =>
    simp only [GK] at g; subst g
    obtain ⟨⟨_, _, c⟩, _⟩ := T
    cases c
  | sect o k r l =>
    simp only [GK] at g; subst g
    obtain ⟨⟨_, _, c⟩, _⟩ := T
    cases c
  | look o k l =>
    simp only [GK] at g; subst g
    obtain ⟨_, n, hk, hl, hkd⟩ := T
    have hm := hk.2.2.2.2 d rfl
    subst hm
    refine ⟨rfl, ?_⟩
    show GK G d A B (lookStep t (.get d) k l)
    rcases look_ok I C.ru hk.ks hl hkd (.get d) with ⟨v, b1, b2⟩ | ⟨q, b1, _⟩ | ⟨b1, b2⟩
    · rw [b1]
      refine ⟨rfl, ?_⟩
      rw [← X.exact d v b2]; exact hB
    · rw [b1]; exact rfl
    · rw [b1]
      refine ⟨rfl, ?_⟩
      obtain ⟨il, h1, h2, h3⟩ := hl
      by_cases hlt : ltHi k.ikey il.hi
      · left
        apply hA
        cases e : mapAfter h d with
        | none => rfl
        | some v => exact absurd (C.last d v e) (b2 il h1 hlt X.neat v)
      · exact Or.inr ⟨il, h1, hlt⟩
  | next o k l =>
    simp only [GK] at g
    obtain ⟨rfl, g⟩ := g
    obtain ⟨_, n, hk, hl, hkd⟩ := T
    have stop : ∀ il, G l = some il → ltHi k.ikey il.hi → A := by
      intro il h1 h2
      rcases g with g | ⟨il', g1, g2⟩
      · exact g
      · rw [h1] at g1; cases g1; exact absurd h2 g2
    obtain ⟨il, h1, _⟩ := id hl
    cases hnx : t.next l with
    | none =>
      simp only [Threads.step, hnx]
      refine ⟨trivial, rfl, hAB (stop il h1 ?_)⟩
      rw [(I.link l il hkd h1).nonext hnx]; simp
    | some q =>
      obtain ⟨nb, b1, b2, b3⟩ := right_ok I hl hkd hnx
      by_cases hle : nb ≤ k.ikey
      · simp only [Threads.step, hnx, b1, if_pos hle]
        exact ⟨trivial, rfl⟩
      · simp only [Threads.step, hnx, b1, if_neg hle]
        refine ⟨trivial, rfl, hAB (stop il h1 ?_)⟩
        rw [b3 il h1]; simp; omega

/-- Neighbouring leaves that share a chunk stay so. -/
theorem apart_back {fixed : Bool} {σ : Nat → St V} {α : Nat → Act V} (E : Exec fixed σ α) {m n : Nat} (hn : n ≤ 2 ^ 128)
    (hm : m ≤ n) (hA : Apart (σ n).tree) : Apart (σ m).tree := by
  induction n with
  | zero => have : m = 0 := by omega
            subst this; exact hA
  | succ n ih =>
    rcases Nat.lt_or_eq_of_le hm with c | c
    · obtain ⟨G, W⟩ := exec_ok E n (by omega)
      obtain ⟨G', E', W'⟩ := W.act fixed (by omega) (α n)
      rw [← E.next n] at E' W'
      exact ih (by omega) (by omega) ((apart_iff W.core.inv).2 (E'.anti ((apart_iff W'.core.inv).1 hA)))
    · subst c; exact hA

/-- Keys that do not clash keep neighbouring leaves apart. -/
theorem apart_of_noClash {fixed : Bool} {σ : Nat → St V} {α : Nat → Act V} (E : Exec fixed σ α) {n : Nat} (hn : n ≤ 2 ^ 128)
    {K : Bytes → Prop} (hK : NoClash K) (hh : ∀ p, p ∈ stored fixed σ α n → K p.1) : Apart (σ n).tree := by
  obtain ⟨G, W⟩ := exec_ok E n hn
  have S := (W.core.exact K hK hh).strong
  exact (apart_iff W.core.inv).2 fun x i hk hx => (S.strict x i hk hx).hi

/-- A lookup of `d` called in step `a` by thread `i`, watched until step `n`. -/
theorem get_watch {fixed : Bool} {σ : Nat → St V} {α : Nat → Act V} (E : Exec fixed σ α) {i a : Nat} {d : Bytes}
    (hc : α a = .call i (.get d)) (hi : (σ a).pc i = .idle ∨ ∃ o r, (σ a).pc i = .done o r) (n : Nat) (ha : a < n)
    (hn : n ≤ 2 ^ 128) (hq : ∀ j, a < j → j < n → ∀ o, α j ≠ .call i o) (hA : Apart (σ n).tree) :
    ∃ G, World (stored fixed σ α n) (σ n) (lost fixed σ α n) G n ∧
      GK G d (∃ j, a < j ∧ j ≤ n ∧ mapAfter (stored fixed σ α j) d = none)
        (fun r => ∃ j, a < j ∧ j ≤ n ∧ r = mapAfter (stored fixed σ α j) d) ((σ n).pc i) := by
  induction n with
  | zero => omega
  | succ n ih =>
    rcases Nat.lt_or_eq_of_le (Nat.le_of_lt_succ ha) with ha' | ha'
    · have hA' := apart_back E hn (Nat.le_succ n) hA
      obtain ⟨G, W, g⟩ := ih ha' (by omega) (fun j h1 h2 => hq j h1 (by omega)) hA'
      obtain ⟨G', E', W'⟩ := W.act fixed (by omega) (α n)
      rw [← stored_succ E n] at W'
      have up : GK G d (∃ j, a < j ∧ j ≤ n + 1 ∧ mapAfter (stored fixed σ α j) d = none)
        (fun r => ∃ j, a < j ∧ j ≤ n + 1 ∧ r = mapAfter (stored fixed σ α j) d) ((σ n).pc i) :=
        g.mono (fun ⟨j, h1, h2, h3⟩ => ⟨j, h1, by omega, h3⟩) (fun r ⟨j, h1, h2, h3⟩ => ⟨j, h1, by omega, h3⟩)
      have hq' := hq n ha' (by omega)
      refine ⟨G', by rw [E.next n]; exact W', ?_⟩
      rw [E.next n]
      cases hact : α n with
      | call i' o =>
        have hne : i ≠ i' := by
          intro c; subst c; exact hq' o hact
        have : (act fixed (σ n) (.call i' o)).pc i = (σ n).pc i := by
          simp only [act]
          split <;> first | rfl | exact upd_ne _ _ _ hne
        rw [this]
        rw [hact] at E'
        exact up.ext E'
      | run i' =>
        rw [hact] at E'
        by_cases hne : i = i'
        · subst hne
          have st := GK.step fixed W.core (W.ok i) up (W.core.neat ((apart_iff W.core.inv).1 hA')) (fun e => ⟨n, ha', by omega, e⟩) ⟨n, ha', by omega, rfl⟩
            (fun ⟨j, h1, h2, h3⟩ => ⟨j, h1, h2, h3.symm⟩)
          simp only [act, upd_same]
          exact st.2.ext E'
        · have : (act fixed (σ n) (.run i')).pc i = (σ n).pc i := upd_ne _ _ _ hne
          rw [this]
          exact up.ext E'
    · subst ha'
      obtain ⟨G, W⟩ := exec_ok E (a + 1) hn
      refine ⟨G, W, ?_⟩
      have : (σ (a + 1)).pc i = begin (σ a).tree (.get d) := by
        rw [E.next a, hc]
        rcases hi with hi | ⟨o, r, hi⟩ <;> simp only [act, hi, upd_same]
      rw [this]
      unfold begin
      split <;> exact rfl

end Verif.Threads
