import Verif.Prop.TreeRace
set_option linter.unusedSimpArgs false
set_option linter.unusedVariables false
set_option maxRecDepth 100000
/-!
# C33 fails: an insert that runs out of hops in a sublayer puts its key elsewhere

Thread 1 inserts two keys `P ++ …`, which gives a sublayer for `P`.  Thread 0 starts to insert `P ++ K` and comes as far as the
first leaf of the sublayer.  Thread 1 inserts 3071 more keys `P ++ …`, so that the sublayer has more than 128 leaves.
Thread 0 runs out of hops and continues at the root of the tree with what is left of its key, that is, `K`.
-/
namespace Verif.Threads
open Verif.Spec
open Verif.Internode (Arr upd upd_same upd_ne)
open Verif.Perm (size get back insertFromBack swapFreeSlots)
open Verif.Tree

/-- The common first eight bytes. -/
def pre8 : Bytes := List.replicate 8 1

/-- The keys inserted by thread 1, 16 bytes each. -/
def crowd (i : Nat) : Bytes := pre8 ++ [0, 0, 0, 0, 0, 0, (i / 256).toUInt8, i.toUInt8]

/-- The last 16 bytes of the key of thread 0. -/
def rest16 : Bytes := List.replicate 8 255 ++ List.replicate 8 7

/-- The key of thread 0. -/
def victim : Bytes := pre8 ++ rest16

/-- The first `n` inserts of thread 1, from number `m` on. -/
def crowdHist (m n : Nat) : History Nat := (List.range n).map fun i => (crowd (m + i), m + i)

theorem crowd_len (i : Nat) : (crowd i).length = 16 := rfl

theorem crowd_chunk {i : Nat} (h : i < 65536) : chunk ((crowd i).drop 8) = i := by
  have : (crowd i).drop 8 = [0, 0, 0, 0, 0, 0, (i / 256).toUInt8, i.toUInt8] := rfl
  rw [this]
  simp only [chunk, padTake, beNat, List.length_cons, List.length_nil, UInt8.toNat_ofNat', Nat.toUInt8]
  simp
  omega

theorem crowd_hist {m n : Nat} {p : Bytes × Nat} (h : p ∈ crowdHist m n) : ∃ i, i < n ∧ p = (crowd (m + i), m + i) := by
  obtain ⟨i, h1, h2⟩ := List.mem_map.1 h
  exact ⟨i, List.mem_range.1 h1, h2.symm⟩

theorem crowdHist_append (m n : Nat) : crowdHist 0 (m + n) = crowdHist 0 m ++ crowdHist m n := by
  simp [crowdHist, List.range_add, Function.comp_def]

theorem crowd_take (i : Nat) : (crowd i).take 8 = pre8 := rfl

/-- Two inserts. -/
def tree2 : Tree Nat :=
  match runFrom empty (crowdHist 0 2) with
  | .ok (t, _) => t
  | .error _ => empty

theorem legal_crowd {n : Nat} (h : n < 65536) : Legal (crowdHist 0 n) := by
  refine ⟨?_, by simp [crowdHist]; omega⟩
  intro p hp
  obtain ⟨i, _, rfl⟩ := crowd_hist hp
  show (crowd (0 + i)).length ≤ 256
  rw [crowd_len]; omega

/-- The keys are in this set. -/
def Crowd (k : Bytes) : Prop := k.length = 16 ∧ k.take 8 = pre8

theorem noClash_crowd : NoClash Crowd := noClash_of_length 16 _ (fun k h => h.1)

theorem runFrom_append {t : Tree Nat} {h h' : History Nat} {t1 : Tree Nat} {os : List (Option Nat)}
    (e : runFrom t h = .ok (t1, os)) {t2 : Tree Nat} {os' : List (Option Nat)} (e' : runFrom t1 h' = .ok (t2, os')) :
    runFrom t (h ++ h') = .ok (t2, os ++ os') := by
  induction h generalizing t os with
  | nil => cases e; simpa using e'
  | cons p h ih =>
    obtain ⟨k, v⟩ := p
    simp only [runFrom, bind, Except.bind] at e
    simp only [List.cons_append, runFrom, bind, Except.bind]
    cases e3 : Tree.insert t k v with
    | error x => rw [e3] at e; cases e
    | ok x =>
      obtain ⟨t', o⟩ := x
      rw [e3] at e
      dsimp only at e ⊢
      cases e4 : runFrom t' h with
      | error x => rw [e4] at e; cases e
      | ok x =>
        obtain ⟨t'', os''⟩ := x
        rw [e4] at e
        cases e
        rw [ih e4]
        rfl

/-- Going on with more inserts, nodes keep kind, layer and lower bound. -/
theorem history_more {K : Bytes → Prop} (hK : NoClash K) : ∀ (h' : History Nat) (h : History Nat) (t : Tree Nat) (G : Ghost),
    Reach h t G → Exact K h t G → (∀ p, p ∈ h' → K p.1 ∧ p.1.length ≤ 256) → h.length + h'.length < 2 ^ 64 →
    ∃ t' os G', runFrom t h' = .ok (t', os) ∧ Reach (h ++ h') t' G' ∧ Exact K (h ++ h') t' G' ∧
      ∀ x i, G x = some i → ∃ i', G' x = some i' ∧ i'.pfx = i.pfx ∧ i'.lo = i.lo ∧ t'.kind x = t.kind x := by
  intro h'
  induction h' with
  | nil =>
    intro h t G R X _ _
    exact ⟨t, [], G, rfl, by simpa using R, by simpa using X, fun x i hx => ⟨i, hx, rfl, rfl, rfl⟩⟩
  | cons p h' ih =>
    obtain ⟨k, v⟩ := p
    intro h t G R X hk hl
    simp only [List.length_cons] at hl
    have hkk := hk (k, v) (by simp)
    obtain ⟨t1, r, G1, g1, g2, _, g3, g4, g5⟩ := history_step_low K R (by omega) hkk.2 v
    obtain ⟨X1, _⟩ := g3 hK hkk.1 X
    obtain ⟨t2, os, G2, f1, f2, f3, f4⟩ := ih (h ++ [(k, v)]) t1 G1 g2 X1 (fun p hp => hk p (by simp [hp]))
      (by simp only [List.length_append, List.length_singleton]; omega)
    refine ⟨t2, r :: os, G2, ?_, by simpa using f2, by simpa using f3, ?_⟩
    · simp only [runFrom, bind, Except.bind, g1, f1]
    · intro x i hx
      obtain ⟨i1, a1, a2, a3⟩ := g5 x i hx
      obtain ⟨i2, b1, b2, b3, b4⟩ := f4 x i1 a1
      exact ⟨i2, b1, by rw [b2, a2], by rw [b3, a3], by rw [b4, g4 x (R.inv.lt hx)]⟩

/-- In a critical section that finds nothing, only the chunk, the length and the suffix of the key matter. -/
theorem searchForInsert_congr {V : Type} {k k' : Key} (h1 : k.ikey = k'.ikey) (h2 : k.hasSuffix = k'.hasSuffix) (h3 : k.suffix = k'.suffix)
    (h4 : k.currentLen = k'.currentLen) (b : Leaf V) : ∀ n i, searchForInsert b k i n = searchForInsert b k' i n := by
  have h5 : searchKlx k = searchKlx k' := by simp only [searchKlx, h2, h4]
  intro n
  induction n with
  | zero => intro i; rfl
  | succ n ih => intro i; simp only [searchForInsert, h1, h2, h3, h5, ih]

theorem crit_congr {V : Type} {k k' : Key} (h1 : k.ikey = k'.ikey) (h2 : k.hasSuffix = k'.hasSuffix) (h3 : k.suffix = k'.suffix)
    (h4 : k.currentLen = k'.currentLen) {v : V} {t t' : Tree V} {r l pos : Nat} {x : Option V}
    (hs : searchForInsert (t.body l) k' 0 (size 5 (t.body l).perm) = .notFound pos)
    (h : crit v t k' r l = .ok (t', .done x)) : crit v t k r l = .ok (t', .done x) := by
  have hs' : searchForInsert (t.body l) k 0 (size 5 (t.body l).perm) = .notFound pos := by
    rw [searchForInsert_congr h1 h2 h3 h4, hs]
  have ha : ∀ s, assignSlot (t.body l) s k v = assignSlot (t.body l) s k' v := by
    intro s; simp only [assignSlot, h1, h2, h3, h4]
  unfold crit at h ⊢
  simp only [bind, Except.bind] at h ⊢
  cases hb : leafAt t l with
  | error e => rw [hb] at h; cases h
  | ok b =>
    have hbb : b = t.body l := by
      unfold leafAt at hb
      split at hb
      · cases hb; rfl
      · cases hb
    subst hbb
    rw [hb] at h
    dsimp only at h ⊢
    cases hl : lock t l with
    | error e => rw [hl] at h; cases h
    | ok t1 =>
      rw [hl] at h
      dsimp only at h ⊢
      cases hn : t1.next l with
      | none =>
        simp only [hn, Bool.false_eq_true, if_false, hs, hs', ha, h1] at h ⊢
        revert h
        repeat' split
        all_goals first | exact id | (intro h; cases h; done)
      | some q =>
        simp only [hn] at h ⊢
        cases hq : ikeyBound t1 q with
        | error e => rw [hq] at h; cases h
        | ok nb =>
          rw [hq] at h
          dsimp only at h ⊢
          simp only [hs, hs', ha, h1] at h ⊢
          revert h
          repeat' split
          all_goals first | exact id | (intro h; cases h; done)

/-! ## The state after two inserts -/

theorem tree2_ok : ∃ os G, runFrom empty (crowdHist 0 2) = .ok (tree2, os) ∧ Reach (crowdHist 0 2) tree2 G ∧
    Exact Crowd (crowdHist 0 2) tree2 G := by
  obtain ⟨t, os, G, h1, h2, h3⟩ := history_ok Crowd (crowdHist 0 2) (legal_crowd (by omega))
  have e : tree2 = t := by simp only [tree2, h1]
  rw [e]
  refine ⟨os, G, h1, h2, h3 noClash_crowd ?_⟩
  intro p hp
  obtain ⟨i, _, rfl⟩ := crowd_hist hp
  exact ⟨crowd_len _, crowd_take _⟩

/-- What the search of thread 0 finds in the first leaf. -/
def layerAt (t : Tree Nat) (k : Key) : Option (Nat × Nat) :=
  match searchForInsert (t.body 0) k 0 (size 5 (t.body 0).perm) with
  | .layer s =>
    match (t.body 0).cell s with
    | .layer q => some (s, q)
    | _ => none
  | _ => none

theorem tree2_facts : tree2.root = 0 ∧ tree2.kind 0 = some .leaf ∧ tree2.parent 0 = none ∧ tree2.next 0 = none ∧
    tree2.kind 1 = some .leaf ∧ tree2.parent 1 = none ∧ tree2.prev 1 = none ∧ tree2.fresh = 2 ∧
    layerAt tree2 (Key.mk' victim) = some (0, 1) ∧ (tree2.body 0).n = 1 ∧ get 5 (tree2.body 0).perm 0 = 0 ∧
    (tree2.body 0).ikey 0 = chunk pre8 := by
  decide +kernel

theorem crit_layer {V : Type} {t : Tree V} {k : Key} {v : V} {r l s q : Nat} (hk : t.kind l = some .leaf) (hl : t.locked l = false)
    (hn : t.next l = none) (hs : searchForInsert (t.body l) k 0 (size 5 (t.body l).perm) = .layer s)
    (hc : (t.body l).cell s = .layer q) : crit v t k r l = .ok (t, .again k.shift q) := by
  have hlf : leafAt t l = .ok (t.body l) := by simp [leafAt, hk]
  have hn' : (lockT t l).next l = none := hn
  simp only [crit, bind, Except.bind, hlf, lock_ok hl, hn', Bool.false_eq_true, if_false, hs, hc, unlock_lock hl]

/-- Thread 0 comes as far as the first leaf of the sublayer. -/
theorem victim_leads : Leads false (tree2, begin tree2 (.insert victim 7))
    (tree2, .adv (.insert victim 7) (Key.mk' victim).shift 1 128 1) := by
  obtain ⟨f1, f2, f3, f4, f5, f6, f7, f8, f9, f10, f11, f12⟩ := tree2_facts
  obtain ⟨os, G, _, R, _⟩ := tree2_ok
  have hl0 : tree2.locked 0 = false := by
    obtain ⟨i, hi⟩ := (R.inv.dom 0).2 (by omega)
    exact R.inv.unlocked hi
  have hb : begin tree2 (.insert victim 7) = .climb (.insert victim 7) (Key.mk' victim) 0 := by
    rw [← f1]; rfl
  obtain ⟨s, hs, hc⟩ : ∃ s, searchForInsert (tree2.body 0) (Key.mk' victim) 0 (size 5 (tree2.body 0).perm) = .layer s ∧
      (tree2.body 0).cell s = .layer 1 := by
    unfold layerAt at f9
    split at f9
    · rename_i s hs
      split at f9
      · rename_i q hq
        cases f9
        exact ⟨_, hs, hq⟩
      · cases f9
    · cases f9
  have hcr := crit_layer (v := 7) (r := 0) f2 hl0 f4 hs hc
  rw [hb]
  refine Leads.step (y := (tree2, .desc (.insert victim 7) (Key.mk' victim) 0 0)) (by simp only [step, f2, f3]) ?_
  refine Leads.step (y := (tree2, .adv (.insert victim 7) (Key.mk' victim) 0 128 0)) (by simp only [step, f2, maxBlinkHops]) ?_
  refine Leads.step (y := (tree2, .sect (.insert victim 7) (Key.mk' victim) 0 0)) (by simp only [step, f4]) ?_
  refine Leads.step (y := (tree2, .climb (.insert victim 7) (Key.mk' victim).shift 1)) (by simp only [step, hcr]) ?_
  refine Leads.step (y := (tree2, .desc (.insert victim 7) (Key.mk' victim).shift 1 1)) (by simp only [step, f5, f6]) ?_
  exact Leads.step (y := (tree2, .adv (.insert victim 7) (Key.mk' victim).shift 1 128 1)) (by simp only [step, f5, maxBlinkHops])
    (Leads.refl _)

/-! ## The crowd arrives -/

theorem victim_at : (Key.mk' victim).shift.Sees victim 1 := (Key.mk'_sees victim).shift

theorem rest_eq : victim.drop 8 = rest16 := rfl

/-- After 3073 inserts: the leaf where thread 0 stands is the first of more than 128. -/
theorem crowd_ok : ∃ t os G, runFrom tree2 (crowdHist 2 3071) = .ok (t, os) ∧ Reach (crowdHist 0 3073) t G ∧
    Exact Crowd (crowdHist 0 3073) t G ∧ ∃ l, advance t (Key.mk' victim).shift.ikey 128 1 = .ok (l, true) := by
  obtain ⟨f1, f2, f3, f4, f5, f6, f7, f8, f9, f10, f11, f12⟩ := tree2_facts
  obtain ⟨os, G, h1, R, X⟩ := tree2_ok
  obtain ⟨t, os', G', g1, R', X', low⟩ := history_more noClash_crowd (crowdHist 2 3071) _ _ _ R X (by
    intro p hp
    obtain ⟨i, _, rfl⟩ := crowd_hist hp
    exact ⟨⟨crowd_len _, crowd_take _⟩, by show (crowd (2 + i)).length ≤ 256; rw [crowd_len]; omega⟩) (by simp [crowdHist])
  rw [← crowdHist_append 2 3071] at R' X'
  refine ⟨t, os', G', g1, R', X', ?_⟩
  obtain ⟨i0, hi0⟩ := (R.inv.dom 0).2 (by omega)
  obtain ⟨i1, hi1⟩ := (R.inv.dom 1).2 (by omega)
  have hlo : i1.lo = 0 := (R.inv.link 1 i1 f5 hi1).noprev f7
  have hb0 : i0.pfx.bytes = [] := by
    obtain ⟨i, hi, hp, _⟩ := R.inv.root
    rw [f1, hi0] at hi; cases hi; exact hp
  have hb1 : i1.pfx.bytes = pre8 := by
    have hcell : ((tree2.body 0).ent 0).cell = .layer 1 := by
      show (tree2.body 0).cell (get 5 (tree2.body 0).perm 0) = _
      rw [f11]
      unfold layerAt at f9
      split at f9
      · split at f9
        · rename_i q hq
          cases f9
          exact hq
        · cases f9
      · cases f9
    have hik : ((tree2.body 0).ent 0).ikey = chunk pre8 := by
      show (tree2.body 0).ikey (get 5 (tree2.body 0).perm 0) = _
      rw [f11, f12]
    obtain ⟨iq, c, a1, a2, a3, a4⟩ := R.inv.layer 0 i0 f2 hi0 0 (by omega) 1 hcell
    rw [hi1] at a1; cases a1
    rw [a2, hb0, List.nil_append]
    have := Verif.Spec.take_eq_of_chunk_eq c pre8 (by omega) (by decide) (by rw [a4, hik])
    rw [List.take_of_length_le (by omega)] at this
    rw [this]; rfl
  obtain ⟨i', b1, b2, b3, b4⟩ := low 1 i1 hi1
  refine advance_overrun R'.inv R'.ru X'.strong b1 (by rw [b4, f5]) (by rw [b3, hlo]) 3073 (by omega) ?_
  intro i hi
  refine ⟨?_, ?_⟩
  · have : (Key.mk' victim).shift.ikey = 2 ^ 64 - 1 := by decide
    omega
  · have hmem : mapAfter (crowdHist 0 3073) (crowd i) ≠ none := by
      intro c
      have : crowd i ∈ (crowdHist 0 3073).map (·.1) := by
        simp only [crowdHist, List.map_map, List.mem_map, List.mem_range]
        exact ⟨i, hi, by simp⟩
      obtain ⟨v, e⟩ := mapAfter_isSome.2 this
      rw [c] at e; cases e
    obtain ⟨v, hv⟩ := Option.ne_none_iff_exists'.1 hmem
    have hk : (Key.mk' (crowd i)).shift.Sees (crowd i) 1 := (Key.mk'_sees (crowd i)).shift
    obtain ⟨e, e1, e2, _⟩ := X'.strong.path_entry noClash_crowd R'.inv R'.ru (R'.last _ v hv) (n := 1) (by rw [crowd_len]; omega)
      ⟨1, i', b1, by rw [b2, hb1]; rfl⟩ hk
    refine ⟨e, ?_, ?_⟩
    · rw [b2, hb1]; exact e1
    · rw [e2.1, hk.ikey_eq]
      exact crowd_chunk (by omega)

/-! ## Thread 0 goes on -/

theorem entry_chunk {t : Tree Nat} {G : Ghost} (S : Strong Crowd t G) {e : Ent Nat} (h : HasE t G [] e) : e.ikey = chunk pre8 := by
  obtain ⟨k, ⟨hk1, hk2⟩, hp, _⟩ := S.key [] e h
  rw [← hp.ikey]
  show chunk k = _
  rw [← Verif.Spec.chunk_take k (by omega), hk2]

/-- Thread 0, at the root with what is left of its key, inserts `rest16`. -/
theorem victim_lands {t : Tree Nat} {G : Ghost} (R : Reach (crowdHist 0 3073) t G) (X : Exact Crowd (crowdHist 0 3073) t G) :
    ∃ t', Tree.insert t rest16 7 = .ok (t', none) ∧
      Leads false (t, .climb (.insert victim 7) (Key.mk' victim).shift t.root) (t', .done (.insert victim 7) none) := by
  have hk1 := victim_at
  have hk0 := Key.mk'_sees rest16
  have e1 : (Key.mk' victim).shift.ikey = (Key.mk' rest16).ikey := by rw [hk1.ikey_eq, hk0.ikey_eq]; rfl
  have e2 : (Key.mk' victim).shift.hasSuffix = (Key.mk' rest16).hasSuffix := by rw [hk1.hasSuffix, hk0.hasSuffix]; rfl
  have e3 : (Key.mk' victim).shift.suffix = (Key.mk' rest16).suffix := by rw [hk1.suffix, hk0.suffix]; rfl
  have e4 : (Key.mk' victim).shift.currentLen = (Key.mk' rest16).currentLen := by rw [hk1.currentLen, hk0.currentLen]; rfl
  obtain ⟨i, hi, hp, _⟩ := R.inv.root
  obtain ⟨r, ir, y, iy, a1, a2, a3, a4, a5, a6, a7, a8, a9⟩ := enter R.inv (Key.mk' rest16).ikey hi
  obtain ⟨l, il, b1, b2, b3, b4, b5, b6⟩ := advance_ok R.inv a6 a7 a9 126
  have hbl : il.pfx.bytes = [] := by rw [b4, a8, hp]
  have hent : ∀ j, j < (t.body l).n → ((t.body l).ent j).ikey = chunk pre8 := fun j hj =>
    entry_chunk X.strong ⟨l, il, j, b2, b3, hbl, hj, rfl⟩
  have hn1 : (t.body l).n ≤ 1 := by
    by_contra c
    have := (X.strong.strict l il b3 b2).lt 0 1 (by omega) (by omega)
    rw [hent 0 (by omega), hent 1 (by omega)] at this
    omega
  have hne : (Key.mk' rest16).ikey ≠ chunk pre8 := by decide
  have hfr := R.fresh
  have hlen : (crowdHist 0 3073).length = 3073 := by simp [crowdHist]
  obtain ⟨t', nx, G', c1, c2, c3, c4⟩ := crit_ok R.inv R.ru R.idb hk0 (by decide) (Or.inl rfl) (by decide) 7 a2
    (by rw [a3, hp]; rfl) b2 b3 (by rw [hbl]; rfl) b5 (by rw [hlen] at hfr; omega)
  rcases c4 with ⟨x, rfl, P⟩ | ⟨_, _, _, _, _, _, _, _, _, _, _, _, c | c | ⟨j, hj, c⟩⟩
  · have hx : x = none := by
      cases hx : x with
      | none => rfl
      | some o =>
        exfalso
        have := R.sound _ _ ((P Crowd).old o hx)
        obtain ⟨j, _, ej⟩ := crowd_hist this
        have := congrArg (fun p : Bytes × Nat => p.1.take 8) ej
        rw [show ((crowd (0 + j), 0 + j) : Bytes × Nat).1.take 8 = pre8 from rfl] at this
        revert this
        show rest16.take 8 = pre8 → False
        decide
    subst hx
    have hS := search_insert_spec (R.inv.body l il b3 b2) (Key.mk' rest16)
    obtain ⟨pos, hpos⟩ : ∃ pos, searchForInsert (t.body l) (Key.mk' rest16) 0 (size 5 (t.body l).perm) = .notFound pos := by
      generalize searchForInsert (t.body l) (Key.mk' rest16) 0 (size 5 (t.body l).perm) = res at hS
      cases hS with
      | notFound p => exact ⟨p, rfl⟩
      | found j hj hm => exact absurd (hm.1.symm.trans (hent j hj)) hne
      | layer j hj hi => exact absurd (hi.symm.trans (hent j hj)) hne
      | conflict j hj hi => exact absurd (hi.symm.trans (hent j hj)) hne
    have d1 := crit_congr (k := (Key.mk' victim).shift) e1 e2 e3 e4 hpos c1
    refine ⟨t', ?_, ?_⟩
    · have hnew : Key.new? rest16 = some (Key.mk' rest16) := by decide
      have hf : 2 * (rest16.length / 8) + 3 = 6 + 1 := by decide
      simp only [Tree.insert, hnew, hf, insertLoop_eq, a1, a5, maxBlinkHops, b1, c1, bind, Except.bind, Bool.false_eq_true, if_false]
    · refine (climb_leads false _ _ a1).trans ?_
      refine (desc_leads false _ _ (by rw [e1]; exact a5)).trans ?_
      refine (adv_leads false _ _ (by rw [e1]; exact b1)).trans ?_
      refine Leads.step (y := (t', .done (.insert victim 7) none)) ?_ (Leads.refl _)
      simp only [Bool.false_eq_true, if_false, step, d1]
  · exact absurd b6 c
  · omega
  · exact absurd (c.symm.trans (hent j hj)) hne

/-- C33 fails for the code.  In some execution an insert of the 24-byte key `victim` reports success, all other inserts having
been of 16-byte keys with the same first eight bytes; afterwards, with no call in progress, `victim` is not found, and the value
is found under `victim.drop 8`, a key that nobody has ever mentioned. -/
theorem C33_key_in_wrong_layer : ∃ (σ : Nat → St Nat) (α : Nat → Act Nat) (n : Nat), Exec false σ α ∧
    (σ n).pc 0 = .done (.insert victim 7) none ∧
    (∀ i, (σ n).pc i = .idle ∨ ∃ o r, (σ n).pc i = .done o r) ∧
    (∀ j i o, j < n → α j = .call i o → o = .insert victim 7 ∨ ∃ m, m < 3073 ∧ o = .insert (crowd m) m) ∧
    get' (σ n).tree victim = .ok none ∧ get' (σ n).tree (victim.drop 8) = .ok (some 7) := by
  obtain ⟨os, G, h1, R, X⟩ := tree2_ok
  obtain ⟨t, os', G', g1, R', X', l, hadv⟩ := crowd_ok
  obtain ⟨t', hins, hlands⟩ := victim_lands R' X'
  let s0 : St Nat := ⟨Tree.empty, fun _ => .idle⟩
  obtain ⟨l1, c1, p1, p2, p3⟩ := inserts_after (i := 1) (crowdHist 0 2) s0 tree2 os (Or.inl rfl) h1
  obtain ⟨m1, hm1⟩ := victim_leads
  let pc1 : Nat → Pc Nat := upd (upd s0.pc 1 c1) 0 (.adv (.insert victim 7) (Key.mk' victim).shift 1 128 1)
  have q1 : after false s0 (l1 ++ (.call 0 (.insert victim 7) :: List.replicate m1 (.run 0))) = ⟨tree2, pc1⟩ := by
    rw [after_append, p1]
    show after false (act false ⟨tree2, upd s0.pc 1 c1⟩ (.call 0 (.insert victim 7))) _ = _
    have e : act false ⟨tree2, upd s0.pc 1 c1⟩ (.call 0 (.insert victim 7)) =
        ⟨tree2, upd (upd s0.pc 1 c1) 0 (begin tree2 (.insert victim 7))⟩ := by
      have : (upd s0.pc 1 c1) 0 = .idle := upd_ne _ _ _ (by omega)
      simp only [act, this]
    rw [e, after_runs]
    simp only [upd_same, hm1]
    congr 1
    funext j
    by_cases e : j = 0
    · subst e; simp only [pc1, upd_same]
    · simp only [pc1, upd_ne _ _ _ e]
  have hpc1 : pc1 1 = c1 := by
    show upd (upd s0.pc 1 c1) 0 _ 1 = c1
    rw [upd_ne _ _ _ (by omega), upd_same]
  obtain ⟨l2, c2, r1, r2, r3⟩ := inserts_after (i := 1) (crowdHist 2 3071) ⟨tree2, pc1⟩ t os' (by rw [← hpc1] at p2; exact p2) g1
  obtain ⟨m2, hm2⟩ := (adv_leads (o := .insert victim 7) (r := 1) false 128 1 hadv).trans (by simpa using hlands)
  have q2 : after false ⟨t, upd pc1 1 c2⟩ (List.replicate m2 (.run 0)) =
      ⟨t', upd (upd pc1 1 c2) 0 (.done (.insert victim 7) none)⟩ := by
    rw [after_runs]
    have : (upd pc1 1 c2) 0 = .adv (.insert victim 7) (Key.mk' victim).shift 1 128 1 := by
      rw [upd_ne _ _ _ (by omega)]; exact upd_same _ _ _
    simp only [this, hm2]
  let acts := (l1 ++ (.call 0 (.insert victim 7) :: List.replicate m1 (.run 0))) ++ (l2 ++ List.replicate m2 (.run 0))
  have q3 : after false s0 acts = ⟨t', upd (upd pc1 1 c2) 0 (.done (.insert victim 7) none)⟩ := by
    show after false s0 (_ ++ (_ ++ _)) = _
    rw [after_append, q1, after_append, r1, q2]
  obtain ⟨σ, α, E, hσ, hα⟩ := exec_of_list false acts
  have hend : σ acts.length = ⟨t', upd (upd pc1 1 c2) 0 (.done (.insert victim 7) none)⟩ := by
    rw [hσ, hα]; exact q3
  obtain ⟨t'', r, G'', s1, R'', -, s3⟩ := history_step (fun k => k.length = 16) R' (by simp [crowdHist]) (k := rest16) (by decide) 7
  rw [hins] at s1
  cases s1
  have hK16 : NoClash (fun k : Bytes => k.length = 16) := noClash_of_length 16 _ (fun k h => h)
  obtain ⟨X2, -⟩ := s3 hK16 (by decide) (by
    refine ⟨⟨X'.strong.strict, ?_, X'.strong.bu, X'.strong.owner⟩, X'.exact, X'.count⟩
    intro p e he
    obtain ⟨k, hk, hk2⟩ := X'.strong.key p e he
    exact ⟨k, hk.1, hk2⟩)
  refine ⟨σ, α, acts.length, E, ?_, ?_, ?_, ?_, ?_⟩
  · rw [hend]; exact upd_same (upd pc1 1 c2) 0 _
  · intro i
    rw [hend]
    show (upd (upd pc1 1 c2) 0 _ i = _) ∨ _
    by_cases e : i = 0
    · subst e; exact Or.inr ⟨_, _, upd_same (upd pc1 1 c2) 0 _⟩
    · simp only [upd_ne _ _ _ e]
      by_cases e1 : i = 1
      · subst e1; simp only [upd_same]; exact r2
      · left
        rw [upd_ne _ _ _ e1]
        show upd (upd s0.pc 1 c1) 0 _ i = _
        rw [upd_ne _ _ _ e, upd_ne _ _ _ e1]
  · intro j i o hj ha
    have hmem : Act.call i o ∈ acts := by
      rw [← hα, ← ha]
      exact List.mem_map.2 ⟨j, List.mem_range.2 hj, rfl⟩
    have ofHist : ∀ m n p, m + n ≤ 3073 → p ∈ crowdHist m n → Act.call i o = .call 1 (.insert p.1 p.2) →
        ∃ m, m < 3073 ∧ o = .insert (crowd m) m := by
      intro m n p hmn hp e
      obtain ⟨x, hx, rfl⟩ := crowd_hist hp
      cases e
      exact ⟨m + x, by omega, rfl⟩
    simp only [acts, List.mem_append, List.mem_cons, List.mem_replicate] at hmem
    rcases hmem with (h | h | ⟨_, h⟩) | h | ⟨_, h⟩
    · rcases p3 _ h with h | ⟨p, hp, h⟩
      · cases h
      · exact Or.inr (ofHist 0 2 p (by omega) hp h)
    · cases h; exact Or.inl rfl
    · cases h
    · rcases r3 _ h with h | ⟨p, hp, h⟩
      · cases h
      · exact Or.inr (ofHist 2 3071 p (by omega) hp h)
    · cases h
  · rw [hend]
    have none : mapAfter (crowdHist 0 3073 ++ [(rest16, 7)]) victim = none := by
      cases e : mapAfter (crowdHist 0 3073 ++ [(rest16, 7)]) victim with
      | none => rfl
      | some v =>
        exfalso
        have := mem_of_mapAfter e
        rcases List.mem_append.1 this with h | h
        · obtain ⟨j, _, ej⟩ := crowd_hist h
          have := congrArg (fun p : Bytes × Nat => p.1.length) ej
          rw [show ((crowd (0 + j), 0 + j) : Bytes × Nat).1.length = 16 from rfl] at this
          revert this
          show victim.length = 16 → False
          decide
        · have := List.mem_singleton.1 h
          have := congrArg (fun p : Bytes × Nat => p.1.length) this
          revert this
          show victim.length = rest16.length → False
          decide
    rw [X2.get R'' hK16 (by decide), none]
  · rw [hend, rest_eq]
    rw [X2.get R'' hK16 (by decide), mapAfter_snoc, if_pos rfl]

end Verif.Threads
