import Verif.Proof.TreeLoop
import Verif.Prop.TreeWitness
set_option linter.unusedSimpArgs false
set_option linter.unusedVariables false
set_option maxRecDepth 100000
/-!
# Histories of inserts
-/
namespace Verif.Tree
open Verif.Spec
open Verif.Internode (Arr upd)
open Verif.Perm (size get)
variable {V : Type}

/-! ## Facts about the specification map -/

theorem mapAfter_snoc (h : History V) (k : Bytes) (v : V) (k' : Bytes) :
    mapAfter (h ++ [(k, v)]) k' = if k' = k then some v else mapAfter h k' := by
  unfold mapAfter
  rw [List.reverse_append, List.reverse_singleton, List.singleton_append, List.find?_cons]
  by_cases e : k' = k
  · subst e; simp
  · have : ((k, v).1 == k') = false := by simp; exact fun c => e c.symm
    simp [this, e]

theorem mem_of_mapAfter {h : History V} {k : Bytes} {v : V} (e : mapAfter h k = some v) : (k, v) ∈ h := by
  unfold mapAfter at e
  rw [Option.map_eq_some_iff] at e
  obtain ⟨⟨k', v'⟩, h1, h2⟩ := e
  have h3 := List.mem_of_find?_eq_some h1
  have h4 := List.find?_some h1
  simp at h2 h4 h3
  subst h2; subst h4; exact h3

theorem mapAfter_isSome {h : History V} {k : Bytes} : (∃ v, mapAfter h k = some v) ↔ k ∈ h.map (·.1) := by
  constructor
  · rintro ⟨v, e⟩
    exact List.mem_map.2 ⟨_, mem_of_mapAfter e, rfl⟩
  · intro hk
    obtain ⟨⟨k', v'⟩, h1, h2⟩ := List.mem_map.1 hk
    dsimp only at h2; subst h2
    unfold mapAfter
    cases e : h.reverse.find? fun p => p.1 == k' with
    | some p => exact ⟨p.2, rfl⟩
    | none =>
      have := List.find?_eq_none.1 e (k', v') (by simpa using h1)
      simp at this

theorem distinctKeys_snoc (h : History V) (k : Bytes) (v : V) :
    distinctKeys (h ++ [(k, v)]) = distinctKeys h + if k ∈ h.map (·.1) then 0 else 1 := by
  unfold distinctKeys
  rw [List.map_append, List.eraseDups_append, List.length_append]
  congr 1
  by_cases e : k ∈ h.map (·.1)
  · rw [if_pos e]
    have : [k].removeAll (h.map (·.1)) = [] := by
      simp only [List.removeAll, List.filter_cons, List.filter_nil]
      rw [if_neg (by simpa using e)]
    simp only [List.map_cons, List.map_nil, this]
    rfl
  · rw [if_neg e]
    have : [k].removeAll (h.map (·.1)) = [k] := by
      simp only [List.removeAll, List.filter_cons, List.filter_nil]
      rw [if_pos (by simpa using e)]
    simp only [List.map_cons, List.map_nil, this]
    rfl

/-! ## The empty tree -/

/-- Ghost description of the empty tree. -/
def G0 : Ghost := fun x => if x = 0 then some ⟨⟨[], 0⟩, 0, none⟩ else none

theorem empty_inv : Inv0 (empty : Tree V) G0 := by
  have hG : ∀ x i, G0 x = some i → x = 0 ∧ i = ⟨⟨[], 0⟩, 0, none⟩ := by
    intro x i h
    unfold G0 at h
    split at h
    · exact ⟨by assumption, (Option.some.inj h).symm⟩
    · cases h
  have hb : (empty : Tree V).body 0 = emptyLeaf := rfl
  have hn : (emptyLeaf : Leaf V).n = 0 := size_initial
  constructor
  · intro x
    constructor
    · rintro ⟨i, hi⟩; obtain ⟨rfl, _⟩ := hG x i hi; exact Nat.one_pos
    · intro hx
      have : x = 0 := by have : (empty : Tree V).fresh = 1 := rfl; omega
      subst this; exact ⟨_, rfl⟩
  · intro x i hi; obtain ⟨rfl, _⟩ := hG x i hi; exact Nat.one_pos
  · intro x hx
    have : x = 0 := by have : (empty : Tree V).fresh = 1 := rfl; omega
    subst this; intro c; cases c
  · intro x hx
    have : x = 0 := by have : (empty : Tree V).fresh = 1 := rfl; omega
    subst this; exact Nat.one_pos
  · intro x i hi; obtain ⟨rfl, rfl⟩ := hG x i hi; rfl
  · intro x i hi; obtain ⟨rfl, rfl⟩ := hG x i hi; simp
  · intro x i _ hi; obtain ⟨rfl, rfl⟩ := hG x i hi; rw [hb]; exact bodyOK_empty _ _
  · intro x i _ hi; obtain ⟨rfl, rfl⟩ := hG x i hi; rw [hb]
    intro j hj; rw [hn] at hj; omega
  · intro x i _ hi; obtain ⟨rfl, rfl⟩ := hG x i hi
    refine ⟨?_, ?_, ?_, ?_, ?_⟩
    · intro y hy; cases hy
    · intro _; rfl
    · intro w hw; cases hw
    · intro hp; exact absurd rfl hp
    · intro _; rfl
  · intro x i hk hi; obtain ⟨rfl, rfl⟩ := hG x i hi; cases hk
  · intro x i hi; obtain ⟨rfl, rfl⟩ := hG x i hi
    refine ⟨?_, ?_⟩
    · intro p hp; cases hp
    · intro _; exact ⟨rfl, rfl, rfl⟩
  · exact ⟨⟨⟨[], 0⟩, 0, none⟩, rfl, rfl, rfl⟩
  · intro x hx
    have : x = 0 := by have : (empty : Tree V).fresh = 1 := rfl; omega
    subst this
    constructor
    · intro c; cases c
    · intro c; cases c

theorem G0_dom {x : Nat} {i : Info} (h : G0 x = some i) : x = 0 ∧ i = ⟨⟨[], 0⟩, 0, none⟩ := by
  unfold G0 at h
  split at h
  · exact ⟨by assumption, (Option.some.inj h).symm⟩
  · cases h

theorem empty_noE (p : Bytes) (e : Ent V) : ¬ HasE (empty : Tree V) G0 p e := by
  rintro ⟨x, i, j, h1, h2, h3, h4, _⟩
  obtain ⟨rfl, rfl⟩ := G0_dom h1
  have : ((empty : Tree V).body 0).n = 0 := size_initial
  omega

/-! ## Any history -/

/-- State reached by a history; `o` is the ghost description. -/
structure Reach (h : History V) (t : Tree V) (G : Ghost) : Prop where
  inv : Inv0 t G
  ru : RU t G
  idb : IdB t G
  r0 : R0 G
  fresh : t.fresh ≤ 1 + 6800 * h.length
  sound : ∀ d v, Has t G d v → (d, v) ∈ h
  last : ∀ d v, mapAfter h d = some v → Has t G d v
  lo : distinctKeys h ≤ t.count
  hi : t.count ≤ h.length
  occ : h ≠ [] → ∃ e, HasE t G [] e
  start : h = [] → t = empty

theorem runFrom_snoc (t : Tree V) (h : History V) (k : Bytes) (v : V) {t1 : Tree V} {os : List (Option V)}
    (e : runFrom t h = .ok (t1, os)) {t2 : Tree V} {r : Option V} (e2 : insert t1 k v = .ok (t2, r)) :
    runFrom t (h ++ [(k, v)]) = .ok (t2, os ++ [r]) := by
  induction h generalizing t os with
  | nil =>
    cases e
    simp [runFrom, e2, bind, Except.bind]
  | cons p h ih =>
    obtain ⟨k', v'⟩ := p
    simp only [runFrom, bind, Except.bind] at e
    simp only [List.cons_append, runFrom, bind, Except.bind]
    cases e3 : insert t k' v' with
    | error x => rw [e3] at e; cases e
    | ok x =>
      obtain ⟨t', o⟩ := x
      rw [e3] at e
      dsimp only at e ⊢
      cases e4 : runFrom t' h with
      | error x => rw [e4] at e; cases e
      | ok x =>
        obtain ⟨t'', os'⟩ := x
        rw [e4] at e
        cases e
        rw [ih t' e4]
        rfl

theorem insert_ok {K : Bytes → Prop} {t : Tree V} {G : Ghost} (h : Inv0 t G) (ru : RU t G) (idb : IdB t G) {d : Bytes}
    (hd : d.length ≤ 256) (hfr : t.fresh + 6800 < 8 ^ 50) (v : V) :
    ∃ t' r G', insert t d v = .ok (t', r) ∧ Step K t G d v r t' G' ∧ t'.fresh ≤ t.fresh + 6800 ∧ ∃ e, HasE t' G' [] e := by
  obtain ⟨i, hi, hp, _⟩ := h.root
  have hnew : Key.new? d = some (Key.mk' d) := by simp [Key.new?, maxKeyLength, hd]
  obtain ⟨t', r, G', h1, h2, h3, h4⟩ := insertLoop_ok (K := K) (v := v) hd (2 * (d.length / 8) + 3) 0 t G (Key.mk' d) t.root i h
    ru idb (Key.mk'_sees d) hi (by simpa using hp) (by omega) (Or.inl rfl) (by omega) (Or.inl (by omega))
  refine ⟨t', r, G', ?_, h2, by omega, h4 (Or.inl rfl)⟩
  simp only [insert, hnew]
  exact h1

theorem reach_empty : Reach ([] : History V) empty G0 := by
  refine ⟨empty_inv, ?_, ?_, ?_, ?_, ?_, ?_, ?_, ?_, ?_, fun _ => rfl⟩
  · intro x y ix iy hx hy _ _ _
    rw [(G0_dom hx).1, (G0_dom hy).1]
  · intro x i hx; obtain ⟨rfl, rfl⟩ := G0_dom hx; exact Nat.one_pos
  · intro x y ix iy hx hy _ _
    rw [(G0_dom hx).2, (G0_dom hy).2]
  · exact Nat.le_refl _
  · intro d v hv
    obtain ⟨p, e, h1, _⟩ := has_iff.1 hv
    exact absurd h1 (empty_noE p e)
  · intro d v e; cases e
  · exact Nat.le_refl _
  · exact Nat.le_refl _
  · intro c; exact absurd rfl c

/-- In addition: no two keys inserted clash, and the entries are exactly the latest bindings. -/
structure Exact (K : Bytes → Prop) (h : History V) (t : Tree V) (G : Ghost) : Prop where
  strong : Strong K t G
  exact : ∀ d v, Has t G d v → mapAfter h d = some v
  count : t.count = distinctKeys h

theorem exact_empty (K : Bytes → Prop) : Exact K ([] : History V) empty G0 := by
  refine ⟨⟨?_, ?_, ?_, ?_⟩, ?_, rfl⟩
  · intro x i _ hx
    obtain ⟨rfl, rfl⟩ := G0_dom hx
    have : ((empty : Tree V).body 0).n = 0 := size_initial
    exact ⟨fun _ _ _ h => by omega, fun _ _ => by simp, by simp⟩
  · intro p e he; exact absurd he (empty_noE p e)
  · intro x y ix iy hx hy _
    rw [(G0_dom hx).2, (G0_dom hy).2]
  · intro x i hx hne
    obtain ⟨rfl, rfl⟩ := G0_dom hx
    exact absurd rfl hne
  · intro d v hv
    obtain ⟨p, e, h1, _⟩ := has_iff.1 hv
    exact absurd h1 (empty_noE p e)

/-- One more insert. -/
theorem history_step_all (K : Bytes → Prop) {h : History V} {t : Tree V} {G : Ghost} (R : Reach h t G) (hlen : h.length < 2 ^ 64)
    {k : Bytes} (hk : k.length ≤ 256) (v : V) :
    ∃ t' r G', insert t k v = .ok (t', r) ∧ Reach (h ++ [(k, v)]) t' G' ∧ (∀ o, r = some o → (k, o) ∈ h) ∧
      (NoClash K → K k → Exact K h t G → Exact K (h ++ [(k, v)]) t' G' ∧ r = mapAfter h k) ∧
      Step K t G k v r t' G' := by
  obtain ⟨t', r, G', g1, g2, g3, g4⟩ := insert_ok (K := K) R.inv R.ru R.idb hk (by have := R.fresh; omega) v
  have hdist := distinctKeys_snoc h k v
  refine ⟨t', r, G', g1, ⟨g2.inv, g2.ru, g2.idb, g2.r0 R.r0, ?_, ?_, ?_, ?_, ?_, fun _ => g4, fun c => by simp at c⟩,
    fun o ho => R.sound k o (g2.old o ho), ?_, g2⟩
  · have := R.fresh
    rw [List.length_append, List.length_singleton]; omega
  · intro d' v' hv
    rcases g2.sound d' v' hv with c | ⟨rfl, rfl⟩
    · exact List.mem_append_left _ (R.sound d' v' c)
    · simp
  · intro d' v' e
    rw [mapAfter_snoc] at e
    by_cases c : d' = k
    · rw [if_pos c] at e; cases e; subst c; exact g2.new
    · rw [if_neg c] at e; exact g2.keep d' v' c (R.last d' v' e)
  · rw [hdist, g2.count]
    have := R.lo
    cases hr : r with
    | none => simp only [Option.isNone_none, if_true]; split <;> omega
    | some o =>
      have hm := R.sound k o (g2.old o hr)
      rw [if_pos (List.mem_map.2 ⟨_, hm, rfl⟩)]
      omega
  · rw [g2.count, List.length_append, List.length_singleton]
    have := R.hi
    split <;> omega
  · intro hK hKk S
    have st' := g2.strong hK hKk S.strong
    refine ⟨⟨st', ?_, ?_⟩, ?_⟩
    · intro d' v' hv
      rw [mapAfter_snoc]
      by_cases c : d' = k
      · subst c
        rw [if_pos rfl]
        have e1 := get_complete hK st' g2.inv g2.ru hk hv
        have e2 := get_complete hK st' g2.inv g2.ru hk g2.new
        rw [e1] at e2
        cases e2; rfl
      · rw [if_neg c]
        rcases g2.sound d' v' hv with e | ⟨e, _⟩
        · exact S.exact d' v' e
        · exact absurd e c
    · rw [hdist, g2.count, S.count]
      cases hr : r with
      | none =>
        have hm : ¬ k ∈ h.map (·.1) := by
          intro hm
          obtain ⟨v', e⟩ := mapAfter_isSome.2 hm
          exact g2.none hK hKk S.strong hr v' (R.last k v' e)
        rw [if_neg hm]
        rfl
      | some o =>
        have hm := R.sound k o (g2.old o hr)
        rw [if_pos (List.mem_map.2 ⟨_, hm, rfl⟩)]
        simp
    · cases hr : r with
      | some o => exact (S.exact k o (g2.old o hr)).symm
      | none =>
        cases e : mapAfter h k with
        | none => rfl
        | some v' => exact absurd (R.last k v' e) (g2.none hK hKk S.strong hr v')

/-- One more insert; nodes keep their kind, layer and lower bound. -/
theorem history_step_low (K : Bytes → Prop) {h : History V} {t : Tree V} {G : Ghost} (R : Reach h t G) (hlen : h.length < 2 ^ 64)
    {k : Bytes} (hk : k.length ≤ 256) (v : V) :
    ∃ t' r G', insert t k v = .ok (t', r) ∧ Reach (h ++ [(k, v)]) t' G' ∧ (∀ o, r = some o → (k, o) ∈ h) ∧
      (NoClash K → K k → Exact K h t G → Exact K (h ++ [(k, v)]) t' G' ∧ r = mapAfter h k) ∧
      (∀ x, x < t.fresh → t'.kind x = t.kind x) ∧
      ∀ x i, G x = some i → ∃ i', G' x = some i' ∧ i'.pfx = i.pfx ∧ i'.lo = i.lo := by
  obtain ⟨t', r, G', g1, g2, g3, g4, g5⟩ := history_step_all K R hlen hk v
  refine ⟨t', r, G', g1, g2, g3, g4, g5.kind, fun x i hx => ?_⟩
  obtain ⟨i', e1, e2, e3, _⟩ := g5.low x i hx
  exact ⟨i', e1, e2, e3⟩

/-- One more insert. -/
theorem history_step (K : Bytes → Prop) {h : History V} {t : Tree V} {G : Ghost} (R : Reach h t G) (hlen : h.length < 2 ^ 64)
    {k : Bytes} (hk : k.length ≤ 256) (v : V) :
    ∃ t' r G', insert t k v = .ok (t', r) ∧ Reach (h ++ [(k, v)]) t' G' ∧ (∀ o, r = some o → (k, o) ∈ h) ∧
      (NoClash K → K k → Exact K h t G → Exact K (h ++ [(k, v)]) t' G' ∧ r = mapAfter h k) := by
  obtain ⟨t', r, G', g1, g2, g3, g4, -⟩ := history_step_low K R hlen hk v
  exact ⟨t', r, G', g1, g2, g3, g4⟩

/-- Every legal history runs, and the tree it leads to satisfies the invariant. -/
theorem history_ok (K : Bytes → Prop) (h : History V) (hl : Legal h) :
    ∃ t os G, runFrom empty h = .ok (t, os) ∧ Reach h t G ∧
      (NoClash K → (∀ p, p ∈ h → K p.1) → Exact K h t G) := by
  induction h using List.reverseRecOn with
  | nil => exact ⟨empty, [], G0, rfl, reach_empty, fun _ _ => exact_empty K⟩
  | append_singleton h p ih =>
    obtain ⟨k, v⟩ := p
    have hl' : Legal h := ⟨fun p hp => hl.keys p (by simp [hp]), by have := hl.len; simp at this; omega⟩
    obtain ⟨t, os, G, r1, R, S⟩ := ih hl'
    obtain ⟨t', r, G', g1, g2, -, g3⟩ := history_step K R hl'.len (hl.keys (k, v) (by simp)) v
    refine ⟨t', os ++ [r], G', runFrom_snoc _ _ _ _ r1 g1, g2, fun hK hKh => (g3 hK (hKh (k, v) (by simp)) ?_).1⟩
    exact S hK (fun p hp => hKh p (by simp [hp]))

/-- Lookups on a reached tree. -/
theorem Exact.get {K : Bytes → Prop} {h : History V} {t : Tree V} {G : Ghost} (S : Exact K h t G) (R : Reach h t G)
    (hK : NoClash K) {d : Bytes} (hd : d.length ≤ 256) : get' t d = .ok (mapAfter h d) := by
  obtain ⟨r, h1, h2⟩ := get_ok R.inv d hd
  cases e : mapAfter h d with
  | some v => exact get_complete hK S.strong R.inv R.ru hd (R.last d v e)
  | none =>
    cases hr : r with
    | none => rw [h1, hr]
    | some v => have := S.exact d v (h2 v hr); rw [e] at this; cases this

theorem Reach.isEmpty {h : History V} {t : Tree V} {G : Ghost} (R : Reach h t G) : isEmpty t = .ok h.isEmpty := by
  by_cases e : h = []
  · rw [R.start e, e]
    simp [Verif.Tree.isEmpty, empty, allocLeaf, upd, size_initial, emptyLeaf]
  · have hf : h.isEmpty = false := by cases h <;> simp_all
    rw [hf]
    obtain ⟨en, x, i, j, h1, h2, h3, h4, _⟩ := R.occ e
    obtain ⟨ir, r1, r2, r3⟩ := R.inv.root
    have hpf : i.pfx = ir.pfx := R.r0 _ _ _ _ h1 r1 h3 r2
    rcases R.inv.kind_cases r1 with hk | hk
    · have hx : x = t.root := by
        cases hp : t.parent x with
        | none => exact R.ru _ _ _ _ h1 r1 hp r3 hpf
        | some p =>
          exfalso
          obtain ⟨ip, j, g1, g2, g3, g4, g5⟩ := R.inv.up_child (E := G) h1 hp
          obtain ⟨r, ir', a1, a2, a3, a4⟩ := R.inv.top_above _ p ip g1 (Nat.le_refl _)
          have := R.ru _ _ _ _ r1 a1 r3 a3 (by rw [a2, ← g5.pfx, hpf])
          subst this
          have := g5.hgt
          rw [hgt_leaf hk] at a4
          omega
      subst hx
      have : size 5 (t.body t.root).perm ≠ 0 := by have : (t.body t.root).n = size 5 (t.body t.root).perm := rfl; omega
      simp [Verif.Tree.isEmpty, hk, this]
    · simp [Verif.Tree.isEmpty, hk]

theorem distinctKeys_eq_zero {h : History V} : distinctKeys h = 0 ↔ h = [] := by
  constructor
  · intro e
    induction h using List.reverseRecOn with
    | nil => rfl
    | append_singleton h p ih =>
      obtain ⟨k, v⟩ := p
      rw [distinctKeys_snoc] at e
      have : h = [] := ih (by omega)
      subst this
      simp at e
  · rintro rfl; rfl

end Verif.Tree
