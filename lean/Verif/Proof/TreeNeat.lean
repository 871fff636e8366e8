import Verif.Proof.TreeHistory
set_option linter.unusedSimpArgs false
set_option linter.unusedVariables false
/-!
# Histories in which no split has separated equal chunks
-/
namespace Verif.Tree
open Verif.Spec
variable {V : Type}

/-- The entries are exactly the latest bindings. -/
structure ExactT (h : History V) (t : Tree V) (G : Ghost) : Prop where
  neat : Neat t G
  exact : ∀ d v, Has t G d v → mapAfter h d = some v
  count : t.count = distinctKeys h

theorem exactT_empty : ExactT ([] : History V) empty G0 := by
  refine ⟨⟨?_, ?_, ?_, ?_, ?_⟩, ?_, rfl⟩
  · intro x i _ hx j hj
    obtain ⟨rfl, rfl⟩ := G0_dom hx
    simp
  · intro x i _ hx
    obtain ⟨rfl, rfl⟩ := G0_dom hx
    simp
  · intro p e he; exact absurd he (empty_noE p e)
  · intro x y ix iy hx hy _
    rw [(G0_dom hx).2, (G0_dom hy).2]
  · intro x i hx hne
    obtain ⟨rfl, rfl⟩ := G0_dom hx
    exact absurd rfl hne
  · intro d v hv
    obtain ⟨p, e, h1, _⟩ := has_iff.1 hv
    exact absurd h1 (empty_noE p e)

theorem ExactT.get {h : History V} {t : Tree V} {G : Ghost} (S : ExactT h t G) (R : Reach h t G) {d : Bytes} (hd : d.length ≤ 256) :
    get' t d = .ok (mapAfter h d) := by
  obtain ⟨r, h1, h2⟩ := get_ok R.inv d hd
  cases e : mapAfter h d with
  | some v => exact S.neat.get_complete R.inv R.ru hd (R.last d v e)
  | none =>
    cases hr : r with
    | none => rw [h1, hr]
    | some v => have := S.exact d v (h2 v hr); rw [e] at this; cases this

/-- One insert preserves exactness, unless it separates equal chunks. -/
theorem ExactT.step {K : Bytes → Prop} {h : History V} {t t' : Tree V} {G G' : Ghost} {k : Bytes} {v : V} {r : Option V}
    (S : ExactT h t G) (last : ∀ d v, mapAfter h d = some v → Has t G d v) (sound : ∀ d v, Has t G d v → (d, v) ∈ h)
    (hk : k.length ≤ 256) (st : Step K t G k v r t' G') (hs : HiStrict t' G') :
    ExactT (h ++ [(k, v)]) t' G' ∧ r = mapAfter h k := by
  have st' := st.neat hs S.neat
  refine ⟨⟨st', ?_, ?_⟩, ?_⟩
  · intro d' v' hv
    rw [mapAfter_snoc]
    by_cases c : d' = k
    · subst c
      rw [if_pos rfl]
      have e1 := st'.get_complete st.inv st.ru hk hv
      have e2 := st'.get_complete st.inv st.ru hk st.new
      rw [e1] at e2
      cases e2; rfl
    · rw [if_neg c]
      rcases st.sound d' v' hv with e | ⟨e, _⟩
      · exact S.exact d' v' e
      · exact absurd e c
  · rw [distinctKeys_snoc, st.count, S.count]
    cases hr : r with
    | none =>
      have hm : ¬ k ∈ h.map (·.1) := by
        intro hm
        obtain ⟨v', e⟩ := mapAfter_isSome.2 hm
        exact st.nil hs S.neat hr v' (last k v' e)
      rw [if_neg hm]
      rfl
    | some o =>
      have hm := sound k o (st.old o hr)
      rw [if_pos (List.mem_map.2 ⟨_, hm, rfl⟩)]
      simp
  · cases hr : r with
    | some o => exact (S.exact k o (st.old o hr)).symm
    | none =>
      cases e : mapAfter h k with
      | none => rfl
      | some v' => exact absurd (last k v' e) (st.nil hs S.neat hr v')

/-! ## In terms of the tree alone -/

/-- No two neighbouring leaves hold the same chunk (the node numbers below `fresh` are the allocated ones). -/
def Apart (t : Tree V) : Prop := ∀ x y, x < t.fresh → t.kind x = some .leaf → t.next x = some y →
  ∀ j j', j < (t.body x).n → j' < (t.body y).n → ((t.body x).ent j).ikey ≠ ((t.body y).ent j').ikey

theorem apart_iff {t : Tree V} {G : Ghost} {lk : Nat → Prop} (h : Inv t G G lk) :
    Apart t ↔ HiStrict t G := by
  constructor
  · intro ha x i hk hx j hj z hz
    cases hn : t.next x with
    | none => rw [(h.link x i hk hx).nonext hn] at hz; cases hz
    | some y =>
      obtain ⟨iy, N⟩ := (h.link x i hk hx).next y hn
      obtain ⟨a1, a2, a3⟩ := (h.link y iy N.kind N.dom).slot0 (by rw [N.prev]; simp)
      have hz' := N.lo
      rw [hz] at hz'; cases hz'
      have hle := (h.body x i hk hx).hi j hj _ hz
      have hne := ha x y (h.lt hx) hk hn j 0 hj a2
      have e : ((t.body y).ent 0).ikey = iy.lo := by
        show (t.body y).ikey (Verif.Perm.get 5 (t.body y).perm 0) = _
        rw [a1, a3]
      rw [e] at hne
      omega
  · intro hs x y hx hk hn j j' hj hj' e
    obtain ⟨i, hx⟩ := (h.dom x).2 hx
    obtain ⟨iy, N⟩ := (h.link x i hk hx).next y hn
    have h1 := hs x i hk hx j hj _ N.lo
    have h2 := (h.body y iy N.kind N.dom).lo j' hj'
    omega

/-- The same, computed. -/
def apartB (t : Tree V) : Bool :=
  (List.range t.fresh).all fun x =>
    match t.next x with
    | none => true
    | some y => (List.range (t.body x).n).all fun j => (List.range (t.body y).n).all fun j' =>
        ((t.body x).ent j).ikey != ((t.body y).ent j').ikey

theorem apartB_sound {t : Tree V} (h : apartB t = true) : Apart t := by
  intro x y hx _ hn j j' hj hj'
  have := List.all_eq_true.1 h x (List.mem_range.2 hx)
  rw [hn] at this
  have := List.all_eq_true.1 this j (List.mem_range.2 hj)
  have := List.all_eq_true.1 this j' (List.mem_range.2 hj')
  simpa using this

/-- One more insert: neighbouring leaves that share a chunk stay so, and without them the tree is exact. -/
theorem neat_step {h : History V} {t : Tree V} {G : Ghost} (R : Reach h t G) (hlen : h.length < 2 ^ 64)
    {k : Bytes} (hk : k.length ≤ 256) (v : V) :
    ∃ t' r G', insert t k v = .ok (t', r) ∧ Reach (h ++ [(k, v)]) t' G' ∧ (HiStrict t' G' → HiStrict t G) ∧
      (HiStrict t' G' → ExactT h t G → ExactT (h ++ [(k, v)]) t' G' ∧ r = mapAfter h k) := by
  obtain ⟨t', r, G', g1, g2, -, -, g5⟩ := history_step_all (fun _ => False) R hlen hk v
  exact ⟨t', r, G', g1, g2, g5.anti, fun hs S => S.step R.last R.sound hk g5 hs⟩

/-- Every legal history runs, and unless neighbouring leaves share a chunk at its end the tree is exact. -/
theorem neat_ok (h : History V) (hl : Legal h) :
    ∃ t os G, runFrom empty h = .ok (t, os) ∧ Reach h t G ∧ (HiStrict t G → ExactT h t G) := by
  induction h using List.reverseRecOn with
  | nil => exact ⟨empty, [], G0, rfl, reach_empty, fun _ => exactT_empty⟩
  | append_singleton h p ih =>
    obtain ⟨k, v⟩ := p
    have hl' : Legal h := ⟨fun p hp => hl.keys p (by simp [hp]), by have := hl.len; simp at this; omega⟩
    obtain ⟨t, os, G, r1, R, S⟩ := ih hl'
    obtain ⟨t', r, G', g1, g2, g3, g4⟩ := neat_step R hl'.len (hl.keys (k, v) (by simp)) v
    exact ⟨t', os ++ [r], G', runFrom_snoc _ _ _ _ r1 g1, g2, fun hs => (g4 hs (S (g3 hs))).1⟩

end Verif.Tree
