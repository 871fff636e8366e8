import Verif.Proof.LeafRaceRead
set_option linter.unusedSimpArgs false
set_option linter.unusedVariables false
/-!
# Readers and writers on one leaf: every result was right at some moment
-/
namespace Verif.Race
open Verif.Spec (Bytes)
open Verif.Internode (upd)
open Verif.Perm (size get back)
open Verif.Tree
variable {V : Type}

/-- No critical section has ended since the leaf was `b0`. -/
structure Epoch (nc : Prop) (b0 : Leaf V) (s : St V) (done : List (Micro V)) : Prop where
  body : BodyOK b0 0 none
  he : s.b = runM b0 done
  hp : (done = [] ∧ s.todo = [] ∧ NV.Idle s.word) ∨
    ((∃ op, KeyOK op.k ∧ PlanSpec b0 op (done ++ s.todo)) ∧ ∃ u, NV.Idle u ∧ s.word = NV.lockedOf u)
  hnc : nc → ¬ IsConf (done ++ s.todo)

theorem Epoch.reads {nc : Prop} {b0 : Leaf V} {s : St V} {done : List (Micro V)} (h : Epoch nc b0 s done) {j : Nat}
    (hj : j < b0.n) : s.b.ikey (get 5 b0.perm j) = b0.ikey (get 5 b0.perm j) ∧
      ReadSpec b0 s.b done s.todo (get 5 b0.perm j) := by
  rcases h.hp with ⟨h1, h2, _⟩ | ⟨⟨op, h1, h2⟩, _⟩
  · subst h1
    rw [h.he]
    exact ⟨rfl, .same rfl rfl rfl (fun _ _ => rfl)⟩
  · have := Verif.Race.reads h.body h2 hj
    rw [h.he]; exact this

theorem Epoch.perm {nc : Prop} {b0 : Leaf V} {s : St V} {done : List (Micro V)} (h : Epoch nc b0 s done) :
    s.b.perm = b0.perm ∨ Epoch nc s.b s [] := by
  rcases h.hp with ⟨h1, h2, _⟩ | ⟨⟨op, h1, h2⟩, h3⟩
  · left; subst h1; rw [h.he]; rfl
  · rcases reads_perm h.body h1 h2 with h4 | ⟨h4, h5⟩
    · left; rw [h.he]; exact h4
    · right
      rw [← h.he] at h5
      refine ⟨h5, rfl, Or.inr ⟨⟨op, h1, ?_⟩, h3⟩, ?_⟩
      · rw [h4]; exact .none
      · rw [h4]; rintro - ⟨a, b, c⟩; simp [conflictPlan] at c

/-- Steps within the epoch. -/
theorem Epoch.step {nc : Prop} {hasPrev : Bool} {b0 : Leaf V} {s s' : St V} {done : List (Micro V)} (h : Epoch nc b0 s done)
    (hs : Step hasPrev s s') (he : s'.secs = s.secs) (hc : nc → ¬ IsConf s'.todo) :
    ∃ d', Epoch nc b0 s' (done ++ d') ∧ (s.todo = [] → (∃ u, NV.Idle u ∧ s.word = NV.lockedOf u) → d' = [] ∧ s'.b = s.b ∧ s'.todo = []) ∧
      ((∃ u, NV.Idle u ∧ s.word = NV.lockedOf u) → done ++ d' ++ s'.todo = done ++ s.todo) := by
  cases hs with
  | start i k hi => exact ⟨[], ⟨h.body, by simpa using h.he, by simpa using h.hp, by simpa using h.hnc⟩, fun a _ => ⟨rfl, rfl, a⟩, fun _ => by simp⟩
  | read i => exact ⟨[], ⟨h.body, by simpa using h.he, by simpa using h.hp, by simpa using h.hnc⟩, fun a _ => ⟨rfl, rfl, a⟩, fun _ => by simp⟩
  | lock op hl hk =>
    rcases h.hp with ⟨h1, h2, h3⟩ | ⟨_, u, h3, h4⟩
    · subst h1
      have hbb : s.b = b0 := h.he
      refine ⟨[], ⟨h.body, h.he, Or.inr ⟨⟨op, hk, ?_⟩, s.word, h3, rfl⟩, ?_⟩, ?_, ?_⟩
      · rw [List.append_nil, List.nil_append]; rw [hbb]; exact plan_spec h.body hasPrev op
      · rw [List.append_nil, List.nil_append]; exact hc
      · rintro - ⟨u, hu, hw⟩; rw [hw, locked_not_lockable hu] at hl; cases hl
      · rintro ⟨u, hu, hw⟩; rw [hw, locked_not_lockable hu] at hl; cases hl
    · rw [h4, locked_not_lockable h3] at hl; cases hl
  | store m ms hm =>
    rcases h.hp with ⟨h1, h2, h3⟩ | ⟨⟨op, h1, h2⟩, u, h3, h4⟩
    · rw [h2] at hm; cases hm
    · refine ⟨[m], ⟨h.body, ?_, Or.inr ⟨⟨op, h1, ?_⟩, u, h3, h4⟩, ?_⟩, ?_, ?_⟩
      · rw [runM_append, ← h.he]; rfl
      · rw [hm] at h2; simpa using h2
      · have := h.hnc; rw [hm] at this; simpa using this
      · intro a; rw [a] at hm; cases hm
      · intro _; rw [hm]; simp
  | unlock ht hl => simp at he

/-- What a reader knows, relative to the leaf `b0` at a moment of the current epoch.  `Seen r`: a lookup alone in the
leaf would have found `r` at some moment since the lookup started. -/
def Loc (nc : Prop) (Seen : Key → Out V → Prop) (b0 : Leaf V) (s : St V) (done : List (Micro V)) : RPc V → Prop
  | .ikey k _ p i => p = b0.perm ∧ (nc → ∀ j, j < i → j < b0.n → ¬ Matches (b0.ent j) k)
  | .klx k _ p i => p = b0.perm ∧ (nc → ∀ j, j < i → j < b0.n → ¬ Matches (b0.ent j) k) ∧ i < b0.n ∧
      b0.ikey (get 5 b0.perm i) = k.ikey
  | .ptr k _ p i x => p = b0.perm ∧ (nc → ∀ j, j < i → j < b0.n → ¬ Matches (b0.ent j) k) ∧ i < b0.n ∧
      b0.ikey (get 5 b0.perm i) = k.ikey ∧
      (x = b0.klx (get 5 b0.perm i) ∨ (b0.klx (get 5 b0.perm i) = 64 ∧ (x = 0 ∨ x = 128) ∧ done ≠ [] ∧
        ∃ q, done ++ s.todo = conflictPlan (get 5 b0.perm i) q))
  | .sufKlx k _ p i c => p = b0.perm ∧ (nc → ∀ j, j < i → j < b0.n → ¬ Matches (b0.ent j) k) ∧ i < b0.n ∧
      b0.ikey (get 5 b0.perm i) = k.ikey ∧ k.hasSuffix = true ∧ b0.klx (get 5 b0.perm i) = 64 ∧
      ((∃ v, c = .val v ∧ (Matches (b0.ent i) k → Seen k (.value v))) ∨
        (¬ nc ∧ s.todo = [] ∧ (∃ u, NV.Idle u ∧ s.word = NV.lockedOf u) ∧ s.b.klx (get 5 b0.perm i) = 128))
  | .suf k _ p i c => p = b0.perm ∧ (nc → ∀ j, j < i → j < b0.n → ¬ Matches (b0.ent j) k) ∧ i < b0.n ∧
      b0.ikey (get 5 b0.perm i) = k.ikey ∧ k.hasSuffix = true ∧ b0.klx (get 5 b0.perm i) = 64 ∧
      (∃ v, c = .val v ∧ (Matches (b0.ent i) k → Seen k (.value v)))
  | .check k _ none => nc → Seen k .absent
  | .check k _ (some (x, c)) => 0 < searchKlx k ∨ nc → Seen k (interp x c)
  | _ => True

theorem not_matches_ikey {b0 : Leaf V} {k : Key} {j : Nat} (h : b0.ikey (get 5 b0.perm j) ≠ k.ikey) :
    ¬ Matches (b0.ent j) k := fun hm => h hm.1

/-- Extending the scanned part by one position. -/
theorem extend {nc : Prop} {b0 : Leaf V} {k : Key} {i : Nat} (h : nc → ∀ j, j < i → j < b0.n → ¬ Matches (b0.ent j) k)
    (hi : nc → ¬ Matches (b0.ent i) k) : nc → ∀ j, j < i + 1 → j < b0.n → ¬ Matches (b0.ent j) k := by
  intro hn j h1 h2
  by_cases e : j = i
  · subst e; exact hi hn
  · exact h hn j (by omega) h2

/-- A reader's own step. -/
theorem Loc.read {nc : Prop} {Seen : Key → Out V → Prop} {b0 : Leaf V} {s : St V} {done : List (Micro V)}
    (h : Epoch nc b0 s done) (h0 : ∀ k, Seen k (seqFind b0 k)) (h1 : ∀ k, Seen k (seqFind s.b k)) {pc : RPc V}
    (hpc : ∀ k v, pc ≠ .perm k v) (hl : Loc nc Seen b0 s done pc) (hnc : ∀ k v sn, pc ≠ .check k v sn) :
    Loc nc Seen b0 s done (rstep s.b s.word pc) := by
  have hb := h.body
  cases pc with
  | idle => trivial
  | stable k => simp only [rstep]; split <;> trivial
  | perm k v => exact absurd rfl (hpc k v)
  | check k v sn => exact absurd rfl (hnc k v sn)
  | dirty k => simp only [rstep]; split <;> trivial
  | done k r => trivial
  | ikey k v p i =>
    obtain ⟨hp, hs⟩ := hl
    subst hp
    simp only [rstep]
    by_cases c : i < size 5 b0.perm
    · rw [if_pos c]
      have e := (h.reads (j := i) c).1
      rw [e]
      by_cases c2 : b0.ikey (get 5 b0.perm i) = k.ikey
      · rw [if_pos c2]; exact ⟨rfl, hs, c, c2⟩
      · rw [if_neg c2]; exact ⟨rfl, extend hs (fun _ => not_matches_ikey c2)⟩
    · rw [if_neg c]
      intro hn
      rw [← seqFind_absent hb (k := k) (fun j hj => hs hn j (by have : j < size 5 b0.perm := hj; omega) hj)]
      exact h0 k
  | klx k v p i =>
    obtain ⟨hp, hs, hi, hik⟩ := hl
    subst hp
    simp only [rstep]
    refine ⟨rfl, hs, hi, hik, ?_⟩
    rcases (h.reads hi).2 with ⟨e1, e2, e3, _⟩ | ⟨e1, e2, e3, e4, _⟩ | ⟨q, hq, e2, e3, e4, e5, e6, e7⟩ | ⟨q, hq, e2, e3, e4, e5, e6, e7, e8⟩
    · exact Or.inl e1
    · exact Or.inl e3
    · rcases e4 with e4 | e4 | e4
      · exact Or.inl (by omega)
      · exact Or.inr ⟨e3, Or.inl e4, e7, q, hq⟩
      · exact Or.inr ⟨e3, Or.inr e4, e7, q, hq⟩
    · exact Or.inr ⟨e3, Or.inr e5, e8, q, hq⟩
  | ptr k v p i x =>
    obtain ⟨hp, hs, hi, hik, hx⟩ := hl
    subst hp
    have hR := (h.reads hi).2
    have hikb := (h.reads hi).1
    have hok := hb.ok i hi
    have hkc := searchKlx_cases k
    -- the slot in the current leaf, when it is well-formed
    simp only [rstep]
    -- a slot that is passed over does not match
    have skip : (nc → x = b0.klx (get 5 b0.perm i)) → x ≠ searchKlx k → ¬ (128 ≤ x ∧ k.hasSuffix = true) →
        nc → ¬ Matches (b0.ent i) k := by
      intro hx' a1 a2 hn hm
      have hx' := hx' hn
      obtain ⟨_, hm | hm⟩ := hm
      · exact a1 (by rw [hx']; exact hm.1)
      · exact a2 ⟨by rw [hx']; exact Nat.le_of_eq hm.1.symm, hm.2⟩
    have hxn : nc → x = b0.klx (get 5 b0.perm i) := by
      intro hn
      rcases hx with hx | ⟨_, _, _, q, hq⟩
      · exact hx
      · exact absurd ⟨_, _, hq⟩ (h.hnc hn)
    cases hc : s.b.cell (get 5 b0.perm i) with
    | null =>
      simp only
      refine ⟨rfl, extend hs (fun hn hm => ?_)⟩
      rcases hR with ⟨e1, e2, e3, _⟩ | ⟨e1, e2, e3, e4, v1, v2, e5, e6, e7⟩ | ⟨q, hq, _⟩ | ⟨q, hq, _⟩
      · rw [hc] at e3
        cases hok with
        | inline _ v hv => have : b0.cell (get 5 b0.perm i) = .val v := hv; rw [this] at e3; cases e3
        | suffix _ v hv => have : b0.cell (get 5 b0.perm i) = .val v := hv; rw [this] at e3; cases e3
        | layer _ q hv => have : b0.cell (get 5 b0.perm i) = .layer q := hv; rw [this] at e3; cases e3
      · rw [hc] at e5; cases e5
      · exact h.hnc hn ⟨_, _, hq⟩
      · exact h.hnc hn ⟨_, _, hq⟩
    | val w =>
      simp only
      -- the value belongs to the base leaf or to the current one
      have hval : b0.klx (get 5 b0.perm i) < 128 ∧ (Matches (b0.ent i) k → Seen k (.value w)) ∧ x = b0.klx (get 5 b0.perm i) := by
        rcases hR with ⟨e1, e2, e3, e4⟩ | ⟨e1, e2, e3, e4, v1, v2, e5, e6, e7⟩ | ⟨q, hq, e2, e3, e4, e5, e6, e7⟩ | ⟨q, hq, e2, e3, e4, e5, e6, e7, e8⟩
        · rw [hc] at e3
          have hlt : b0.klx (get 5 b0.perm i) < 128 := by
            cases hok with
            | inline a _ _ => have a : b0.klx (get 5 b0.perm i) ≤ 8 := a; omega
            | suffix a _ _ => have a : b0.klx (get 5 b0.perm i) = 64 := a; omega
            | layer _ q hv => have : b0.cell (get 5 b0.perm i) = .layer q := hv; rw [this] at e3; cases e3
          refine ⟨hlt, fun hm => ?_, ?_⟩
          · have := seqFind_match hb hi hm
            rw [← e3, interp, if_neg (by unfold layerKeylenx; omega)] at this
            rw [← this]; exact h0 k
          · rcases hx with hx | ⟨_, _, a3, q, hq⟩
            · exact hx
            · exact absurd (e4 ⟨_, _, hq⟩ ⟨q, hq⟩) a3
        · rw [hc] at e5
          cases e5
          have hlt : b0.klx (get 5 b0.perm i) < 128 := by
            cases hok with
            | inline a _ _ => have a : b0.klx (get 5 b0.perm i) ≤ 8 := a; omega
            | suffix a _ _ => have a : b0.klx (get 5 b0.perm i) = 64 := a; omega
            | layer _ q hv => have : b0.cell (get 5 b0.perm i) = .layer q := hv; rw [this] at e6; cases e6
          have hbs : BodyOK s.b 0 none := by
            rcases h.hp with ⟨a1, a2, a3⟩ | ⟨⟨op, a1, a2⟩, _⟩
            · rw [h.he, a1]; exact hb
            · rw [e1, List.append_nil] at a2; rw [h.he]; exact plan_body hb a1 a2
          refine ⟨hlt, fun hm => ?_, ?_⟩
          · have hn : s.b.n = b0.n := by unfold Leaf.n; rw [e2]
            have hm' : Matches (s.b.ent i) k := by
              obtain ⟨m1, m2⟩ := hm
              unfold Matches at *
              simp only [Leaf.ent, entAt, Leaf.suf] at m1 m2 ⊢
              rw [e2, e3, e4, hikb]
              exact ⟨m1, m2⟩
            have := seqFind_match hbs (by omega) hm'
            rw [e2, hc, e3, interp, if_neg (by unfold layerKeylenx; omega)] at this
            rw [← this]; exact h1 k
          · rcases hx with hx | ⟨_, _, a3, q, hq⟩
            · exact hx
            · exact absurd ⟨_, _, hq⟩ e7
        · rw [hc] at e5; cases e5
        · rw [hc] at e6; cases e6
      obtain ⟨hlt, hseen, hxe⟩ := hval
      by_cases c1 : x = searchKlx k
      · rw [if_pos c1]
        by_cases c2 : x = ksufKeylenx
        · rw [if_pos c2]
          have hsfx : k.hasSuffix = true := by
            rcases hkc with ⟨a, _⟩ | ⟨_, a, b, _⟩
            · exact a
            · unfold ksufKeylenx at c2; omega
          exact ⟨rfl, hs, hi, hik, hsfx, by rw [← hxe]; exact c2, Or.inl ⟨w, rfl, hseen⟩⟩
        · rw [if_neg c2]
          intro _
          have hm : Matches (b0.ent i) k := ⟨hik, Or.inl ⟨by show b0.klx _ = _; rw [← hxe]; exact c1, fun e => absurd (show x = 64 by rw [hxe]; exact e) c2⟩⟩
          have := hseen hm
          rw [interp, if_neg (by unfold layerKeylenx; omega)]
          exact this
      · rw [if_neg c1, if_neg (by unfold layerKeylenx; omega)]
        exact ⟨rfl, extend hs (skip hxn c1 (by omega))⟩
    | layer q =>
      simp only
      have hlay : (b0.klx (get 5 b0.perm i) = 128 ∧ x = 128 ∧ b0.cell (get 5 b0.perm i) = .layer q) ∨
          (b0.klx (get 5 b0.perm i) = 64 ∧ s.todo = [] ∧ (∃ u, NV.Idle u ∧ s.word = NV.lockedOf u) ∧ s.b.klx (get 5 b0.perm i) = 128 ∧ s.b.perm = b0.perm ∧
            IsConf (done ++ s.todo)) := by
        rcases hR with ⟨e1, e2, e3, e4⟩ | ⟨e1, e2, e3, e4, v1, v2, e5, e6, e7⟩ | ⟨q, hq, e2, e3, e4, e5, e6, e7⟩ | ⟨q, hq, e2, e3, e4, e5, e6, e7, e8⟩
        · rw [hc] at e3
          have hk128 : b0.klx (get 5 b0.perm i) = 128 := by
            cases hok with
            | inline a v hv => have : b0.cell (get 5 b0.perm i) = .val v := hv; rw [this] at e3; cases e3
            | suffix a v hv => have : b0.cell (get 5 b0.perm i) = .val v := hv; rw [this] at e3; cases e3
            | layer a q hv => exact a
          refine Or.inl ⟨hk128, ?_, e3.symm⟩
          rcases hx with hx | ⟨hx, _⟩ <;> omega
        · rw [hc] at e5; cases e5
        · rw [hc] at e5; cases e5
        · right
          refine ⟨e3, e4, ?_, e5, e2, ⟨_, _, hq⟩⟩
          rcases h.hp with ⟨a1, a2, a3⟩ | ⟨_, a⟩
          · exact absurd a1 e8
          · exact a
      rcases hlay with ⟨a1, a2, a3⟩ | ⟨a1, a2, a3, a4, a5, a6⟩
      · -- a layer of the base leaf
        have hne : x ≠ searchKlx k := by
          rcases hkc with ⟨_, b, _⟩ | ⟨_, b, b', _⟩ <;> omega
        rw [if_neg hne]
        by_cases c2 : layerKeylenx ≤ x ∧ k.hasSuffix = true
        · rw [if_pos c2]
          intro _
          have hm : Matches (b0.ent i) k := ⟨hik, Or.inr ⟨a1, c2.2⟩⟩
          have := seqFind_match hb hi hm
          rw [a1, a3] at this
          rw [a2, ← this]; exact h0 k
        · rw [if_neg c2]
          exact ⟨rfl, extend hs (skip hxn hne c2)⟩
      · -- the slot has just become a layer
        have hnn : ¬ nc := fun hn => h.hnc hn a6
        by_cases c1 : x = searchKlx k
        · rw [if_pos c1]
          by_cases c2 : x = ksufKeylenx
          · rw [if_pos c2]
            have hsfx : k.hasSuffix = true := by
              rcases hkc with ⟨a, _⟩ | ⟨_, a, b, _⟩
              · exact a
              · unfold ksufKeylenx at c2; omega
            exact ⟨rfl, hs, hi, hik, hsfx, a1, Or.inr ⟨hnn, a2, a3, a4⟩⟩
          · rw [if_neg c2]
            rintro (hpos | hn)
            · exfalso
              unfold ksufKeylenx at c2
              rcases hx with hx | ⟨_, hx | hx, _⟩
              · omega
              · omega
              · rcases hkc with ⟨_, b, _⟩ | ⟨_, b, b', _⟩ <;> omega
            · exact absurd hn hnn
        · rw [if_neg c1]
          by_cases c2 : layerKeylenx ≤ x ∧ k.hasSuffix = true
          · rw [if_pos c2]
            intro _
            unfold layerKeylenx at c2
            have hx128 : x = 128 := by
              rcases hx with hx | ⟨_, hx | hx, _⟩ <;> omega
            have hbs : BodyOK s.b 0 none := by
              rcases h.hp with ⟨b1, b2, b3⟩ | ⟨⟨op, b1, b2⟩, _⟩
              · rw [h.he, b1]; exact hb
              · rw [a2, List.append_nil] at b2; rw [h.he]; exact plan_body hb b1 b2
            have hn : s.b.n = b0.n := by unfold Leaf.n; rw [a5]
            have hm' : Matches (s.b.ent i) k := by
              refine ⟨?_, Or.inr ⟨?_, c2.2⟩⟩
              · show s.b.ikey (get 5 s.b.perm i) = _; rw [a5, hikb]; exact hik
              · show s.b.klx (get 5 s.b.perm i) = _; rw [a5]; exact a4
            have := seqFind_match hbs (by omega) hm'
            rw [a5, hc, a4] at this
            rw [hx128, ← this]; exact h1 k
          · rw [if_neg c2]
            exact ⟨rfl, fun hn => absurd hn hnn⟩
  | sufKlx k v p i c =>
    obtain ⟨hp, hs, hi, hik, hsf, hk64, hcc⟩ := hl
    subst hp
    simp only [rstep]
    by_cases c1 : s.b.klx (get 5 b0.perm i) = ksufKeylenx
    · rw [if_pos c1]
      refine ⟨rfl, hs, hi, hik, hsf, hk64, ?_⟩
      rcases hcc with hcc | ⟨_, _, _, hcc⟩
      · exact hcc
      · unfold ksufKeylenx at c1; omega
    · rw [if_neg c1]
      refine ⟨rfl, extend hs (fun hn hm => ?_)⟩
      unfold ksufKeylenx at c1
      rcases (h.reads hi).2 with ⟨e1, _⟩ | ⟨_, _, e1, _⟩ | ⟨q, hq, _⟩ | ⟨q, hq, _⟩
      · omega
      · omega
      · exact h.hnc hn ⟨_, _, hq⟩
      · exact h.hnc hn ⟨_, _, hq⟩
  | suf k v p i c =>
    obtain ⟨hp, hs, hi, hik, hsf, hk64, w, hw, hseen⟩ := hl
    subst hp hw
    have hsk : searchKlx k = 64 := by
      rcases searchKlx_cases k with ⟨_, a, _⟩ | ⟨a, _⟩
      · exact a
      · rw [hsf] at a; cases a
    have hent : (b0.ent i).suf = b0.ksuf (get 5 b0.perm i) := by
      show b0.suf _ = _
      unfold Leaf.suf
      exact if_pos hk64
    simp only [rstep]
    by_cases c1 : s.b.ksuf (get 5 b0.perm i) = some k.suffix
    · rw [if_pos c1]
      intro _
      have hm : Matches (b0.ent i) k := by
        refine ⟨hik, Or.inl ⟨by rw [hsk]; exact hk64, fun _ => ?_⟩⟩
        rw [hent]
        rcases (h.reads hi).2 with ⟨_, e1, _⟩ | ⟨_, _, _, e1, _⟩ | ⟨q, hq, _, _, _, _, e1, _⟩ | ⟨q, hq, _, _, _, _, _, e1, _⟩
        · rw [← e1]; exact c1
        · rw [← e1]; exact c1
        · rcases e1 with e1 | e1
          · rw [← e1]; exact c1
          · rw [e1] at c1; cases c1
        · rw [e1] at c1; cases c1
      have := hseen hm
      exact this
    · rw [if_neg c1]
      refine ⟨rfl, extend hs (fun hn hm => c1 ?_)⟩
      have hsuf : b0.ksuf (get 5 b0.perm i) = some k.suffix := by
        rw [← hent]
        rcases hm.2 with a | a
        · exact a.2 hk64
        · have : (b0.ent i).klx = 64 := hk64
          omega
      rcases (h.reads hi).2 with ⟨_, e1, _⟩ | ⟨_, _, _, e1, _⟩ | ⟨q, hq, _⟩ | ⟨q, hq, _⟩
      · rw [e1]; exact hsuf
      · rw [e1]; exact hsuf
      · exact absurd ⟨_, _, hq⟩ (h.hnc hn)
      · exact absurd ⟨_, _, hq⟩ (h.hnc hn)

/-- Steps of others. -/
theorem Loc.other {nc : Prop} {Seen Seen' : Key → Out V → Prop} (hS : ∀ k r, Seen k r → Seen' k r) {b0 : Leaf V}
    {s s' : St V} {done d' : List (Micro V)}
    (hd : s.todo = [] → (∃ u, NV.Idle u ∧ s.word = NV.lockedOf u) → d' = [] ∧ s'.b = s.b ∧ s'.todo = [])
    (hw : (∃ u, NV.Idle u ∧ s.word = NV.lockedOf u) → ∃ u, NV.Idle u ∧ s'.word = NV.lockedOf u)
    (ha : (∃ u, NV.Idle u ∧ s.word = NV.lockedOf u) → done ++ d' ++ s'.todo = done ++ s.todo)
    (hE : Epoch nc b0 s done) {pc : RPc V} (hl : Loc nc Seen b0 s done pc) : Loc nc Seen' b0 s' (done ++ d') pc := by
  cases pc with
  | ptr k v p i x =>
    obtain ⟨a1, a2, a3, a4, a5⟩ := hl
    refine ⟨a1, a2, a3, a4, ?_⟩
    rcases a5 with a5 | ⟨a5, a6, a7, q, a8⟩
    · exact Or.inl a5
    · have hb : ∃ u, NV.Idle u ∧ s.word = NV.lockedOf u := by
        rcases hE.hp with ⟨b1, _⟩ | ⟨_, b⟩
        · exact absurd b1 a7
        · exact b
      exact Or.inr ⟨a5, a6, by simp [a7], q, by rw [ha hb]; exact a8⟩
  | sufKlx k v p i c =>
    obtain ⟨a1, a2, a3, a4, a5, a6, a7⟩ := hl
    refine ⟨a1, a2, a3, a4, a5, a6, ?_⟩
    rcases a7 with ⟨w, hw', hs⟩ | ⟨b1, b2, b3, b4⟩
    · exact Or.inl ⟨w, hw', fun hm => hS _ _ (hs hm)⟩
    · obtain ⟨c1, c2, c3⟩ := hd b2 b3
      exact Or.inr ⟨b1, c3, hw b3, by rw [c2]; exact b4⟩
  | suf k v p i c =>
    obtain ⟨a1, a2, a3, a4, a5, a6, w, hw', hs⟩ := hl
    exact ⟨a1, a2, a3, a4, a5, a6, w, hw', fun hm => hS _ _ (hs hm)⟩
  | check k v sn =>
    cases sn with
    | none => exact fun hn => hS _ _ (hl hn)
    | some y => exact fun hn => hS _ _ (hl hn)
  | ikey k v p i => exact hl
  | klx k v p i => exact hl
  | _ => trivial

/-- The snapshot of a reader. -/
def RPc.ver : RPc V → Option NV.W
  | .perm _ v => some v
  | .ikey _ v _ _ => some v
  | .klx _ v _ _ => some v
  | .ptr _ v _ _ _ => some v
  | .sufKlx _ v _ _ _ => some v
  | .suf _ v _ _ _ => some v
  | .check _ v _ => some v
  | _ => none

/-- The key a reader looks for. -/
def RPc.key : RPc V → Option Key
  | .idle => none
  | .stable k => some k
  | .perm k _ => some k
  | .ikey k _ _ _ => some k
  | .klx k _ _ _ => some k
  | .ptr k _ _ _ _ => some k
  | .sufKlx k _ _ _ _ => some k
  | .suf k _ _ _ _ => some k
  | .check k _ _ => some k
  | .dirty k => some k
  | .done k _ => some k

/-- An execution of `N` steps. -/
def Exec (hasPrev : Bool) (σ : Nat → St V) (N : Nat) : Prop := ∀ n, n < N → Step hasPrev (σ n) (σ (n + 1))

/-- A lookup alone in the leaf would have found `r` at some moment between `n0` and `n`. -/
def SeenBy (σ : Nat → St V) (n0 n : Nat) (k : Key) (r : Out V) : Prop :=
  ∃ m, n0 ≤ m ∧ m ≤ n ∧ seqFind (σ m).b k = r

/-- Invariant of one reader. -/
structure RInv (nc : Prop) (σ : Nat → St V) (n0 n : Nat) (pc : RPc V) : Prop where
  snap : ∀ v, pc.ver = some v → ∃ c, NV.Idle v ∧ (σ n0).secs ≤ c ∧ c ≤ (σ n).secs ∧
    Since v ((σ n).secs - c) (σ n).word ∧ ((σ n).secs = c → ∃ b0 done, (∃ m, n0 ≤ m ∧ m ≤ n ∧ (σ m).b = b0) ∧
      Epoch nc b0 (σ n) done ∧ Loc nc (SeenBy σ n0 n) b0 (σ n) done pc)
  dirty : ∀ k, pc = .dirty k → nc → SeenBy σ n0 n k .absent
  done : ∀ k r, pc = .done k r → (r = .absent → nc) → (r ≠ .absent → 0 < searchKlx k ∨ nc) → SeenBy σ n0 n k r

theorem SeenBy.mono {σ : Nat → St V} {n0 n n' : Nat} (h : n ≤ n') {k : Key} {r : Out V} (hs : SeenBy σ n0 n k r) :
    SeenBy σ n0 n' k r := by
  obtain ⟨m, h1, h2, h3⟩ := hs
  exact ⟨m, h1, by omega, h3⟩

theorem Since.step {hasPrev : Bool} {s s' : St V} (hs : Step hasPrev s s') {v : NV.W} (hv : NV.Idle v) {c : Nat}
    (hc : c ≤ s.secs) (h : Since v (s.secs - c) s.word) : s.secs ≤ s'.secs ∧ Since v (s'.secs - c) s'.word := by
  cases hs with
  | start i k hi => exact ⟨Nat.le_refl _, h⟩
  | read i => exact ⟨Nat.le_refl _, h⟩
  | store m ms hm => exact ⟨Nat.le_refl _, h⟩
  | lock op hl hk =>
    refine ⟨Nat.le_refl _, ?_⟩
    cases h with
    | idle h => exact .held (by rw [← h])
    | held h =>
      rw [h, locked_not_lockable (NV.run_idle hv _)] at hl; cases hl
  | unlock ht hl =>
    refine ⟨Nat.le_succ _, ?_⟩
    cases h with
    | idle h => rw [h, idle_unlocked (NV.run_idle hv _)] at hl; cases hl
    | held h =>
      refine .idle ?_
      show NV.unlockOf s.word = NV.run v (List.replicate (s.secs + 1 - c) _)
      rw [h, show s.secs + 1 - c = (s.secs - c) + 1 by omega, run_replicate_succ, unlock_cycle]

theorem locked_step {hasPrev : Bool} {s s' : St V} (hs : Step hasPrev s s') (he : s'.secs = s.secs) :
    (∃ u, NV.Idle u ∧ s.word = NV.lockedOf u) → ∃ u, NV.Idle u ∧ s'.word = NV.lockedOf u := by
  rintro ⟨u, h1, h2⟩
  cases hs with
  | start i k hi => exact ⟨u, h1, h2⟩
  | read i => exact ⟨u, h1, h2⟩
  | store m ms hm => exact ⟨u, h1, h2⟩
  | lock op hl hk => rw [h2, locked_not_lockable h1] at hl; cases hl
  | unlock ht hl => simp at he

/-- Steps that do not move this reader. -/
theorem RInv.other {nc : Prop} {hasPrev : Bool} {σ : Nat → St V} {n0 n : Nat} (hn : n0 ≤ n)
    (hs : Step hasPrev (σ n) (σ (n + 1))) (hc : nc → ¬ IsConf (σ (n + 1)).todo) {pc : RPc V} (h : RInv nc σ n0 n pc) :
    RInv nc σ n0 (n + 1) pc := by
  refine ⟨fun v hv => ?_, fun k hk a => (h.dirty k hk a).mono (by omega), fun k r hk a b => (h.done k r hk a b).mono (by omega)⟩
  obtain ⟨c, c1, c2, c3, c4, c5⟩ := h.snap v hv
  obtain ⟨s1, s2⟩ := c4.step hs c1 c3
  refine ⟨c, c1, c2, by omega, s2, fun e => ?_⟩
  have e' : (σ n).secs = c := by omega
  obtain ⟨b0, done, ⟨m, m1, m2, m3⟩, hE, hL⟩ := c5 e'
  obtain ⟨d', E', E2, E3⟩ := hE.step hs (by omega) hc
  exact ⟨b0, done ++ d', ⟨m, m1, by omega, m3⟩, E',
    Loc.other (fun k r hs => hs.mono (by omega)) E2 (locked_step hs (by omega)) E3 hE hL⟩

/-- The reader's own step. -/
theorem RInv.own {nc : Prop} {σ : Nat → St V} {n0 n : Nat} (hn : n0 ≤ n) (hW : WInv (σ n)) {pc : RPc V}
    (hb : (σ (n + 1)).b = (σ n).b) (hw : (σ (n + 1)).word = (σ n).word) (ht : (σ (n + 1)).todo = (σ n).todo)
    (hsecs : (σ (n + 1)).secs = (σ n).secs) (hle : (σ n0).secs ≤ (σ n).secs) (hbound : (σ n).secs - (σ n0).secs < 2 ^ 19)
    (h : RInv nc σ n0 n pc) (hnd : ∀ k r, pc ≠ .done k r) (hni : pc ≠ .idle) :
    RInv nc σ n0 (n + 1) (rstep (σ n).b (σ n).word pc) := by
  have hEpoch : ∀ b0 done, Epoch nc b0 (σ n) done → Epoch nc b0 (σ (n + 1)) done := by
    intro b0 done E
    exact ⟨E.body, by rw [hb]; exact E.he, by rw [ht, hw]; exact E.hp, by rw [ht]; exact E.hnc⟩
  have hLocS : ∀ b0 done pc, Loc nc (SeenBy σ n0 n) b0 (σ n) done pc → Epoch nc b0 (σ n) done →
      Loc nc (SeenBy σ n0 (n + 1)) b0 (σ (n + 1)) done pc := by
    intro b0 done pc hL hE
    have := Loc.other (s' := σ (n + 1)) (d' := []) (Seen' := SeenBy σ n0 (n + 1)) (fun k r hs => hs.mono (by omega))
      (fun a _ => ⟨rfl, hb, by rw [ht]; exact a⟩) (fun a => by rw [hw]; exact a) (fun _ => by rw [ht]; simp) hE hL
    simpa using this
  -- pcs with a snapshot whose successor has the same snapshot
  have keep : ∀ v, pc.ver = some v → (∀ k v, pc ≠ .perm k v) → (∀ k v sn, pc ≠ .check k v sn) →
      (rstep (σ n).b (σ n).word pc).ver = some v →
      ∃ c, NV.Idle v ∧ (σ n0).secs ≤ c ∧ c ≤ (σ (n + 1)).secs ∧ Since v ((σ (n + 1)).secs - c) (σ (n + 1)).word ∧
        ((σ (n + 1)).secs = c → ∃ b0 done, (∃ m, n0 ≤ m ∧ m ≤ n + 1 ∧ (σ m).b = b0) ∧
          Epoch nc b0 (σ (n + 1)) done ∧ Loc nc (SeenBy σ n0 (n + 1)) b0 (σ (n + 1)) done (rstep (σ n).b (σ n).word pc)) := by
    intro v hv h1 h2 _
    obtain ⟨c, c1, c2, c3, c4, c5⟩ := h.snap v hv
    refine ⟨c, c1, c2, by omega, by rw [hsecs, hw]; exact c4, fun e => ?_⟩
    obtain ⟨b0, done, ⟨m, m1, m2, m3⟩, hE, hL⟩ := c5 (by omega)
    refine ⟨b0, done, ⟨m, m1, by omega, m3⟩, hEpoch _ _ hE, hLocS _ _ _ ?_ hE⟩
    exact Loc.read hE (fun k => ⟨m, m1, m2, by rw [m3]⟩) (fun k => ⟨n, hn, Nat.le_refl _, rfl⟩) h1 hL h2
  cases pc with
  | idle => exact absurd rfl hni
  | done k r => exact absurd rfl (hnd k r)
  | stable k =>
    simp only [rstep]
    by_cases c : NV.isDirty (σ n).word
    · rw [if_pos c]
      exact ⟨fun v hv => (by cases hv), fun k hk => (by cases hk), fun k r hk => (by cases hk)⟩
    · rw [if_neg c]
      refine ⟨fun v hv => ?_, fun k hk => (by cases hk), fun k r hk => (by cases hk)⟩
      cases hv
      cases hW with
      | busy b0 op done h1 h2 h3 h4 u h5 h6 => rw [h6, locked_dirty h5] at c; exact absurd rfl c
      | free h1 h2 h3 =>
        refine ⟨(σ n).secs, h3, hle, by omega, ?_, fun _ => ?_⟩
        · rw [hsecs, Nat.sub_self, hw]; exact .idle rfl
        · refine ⟨(σ n).b, [], ⟨n, hn, by omega, rfl⟩, hEpoch _ _ ⟨h2, rfl, Or.inl ⟨rfl, h1, h3⟩, ?_⟩, trivial⟩
          rw [h1]; rintro - ⟨a, b, c⟩; simp [conflictPlan] at c
  | perm k v =>
    simp only [rstep]
    refine ⟨fun v' hv => ?_, fun k hk => (by cases hk), fun k r hk => (by cases hk)⟩
    cases hv
    obtain ⟨c, c1, c2, c3, c4, c5⟩ := h.snap v rfl
    refine ⟨c, c1, c2, by omega, by rw [hsecs, hw]; exact c4, fun e => ?_⟩
    obtain ⟨b0, done, ⟨m, m1, m2, m3⟩, hE, hL⟩ := c5 (by omega)
    rcases hE.perm with hp | hE'
    · exact ⟨b0, done, ⟨m, m1, by omega, m3⟩, hEpoch _ _ hE, hp, fun _ j hj => absurd hj (by omega)⟩
    · exact ⟨(σ n).b, [], ⟨n, hn, by omega, rfl⟩, hEpoch _ _ hE', rfl, fun _ j hj => absurd hj (by omega)⟩
  | check k v sn =>
    simp only [rstep]
    by_cases c : NV.hasChanged v (σ n).word
    · rw [if_pos c]
      exact ⟨fun v hv => (by cases hv), fun k hk => (by cases hk), fun k r hk => (by cases hk)⟩
    · rw [if_neg c]
      obtain ⟨c0, c1, c2, c3, c4, c5⟩ := h.snap v rfl
      have h0 := c4.unchanged c1 (by omega) (by simpa using c)
      obtain ⟨b0, done, ⟨m, m1, m2, m3⟩, hE, hL⟩ := c5 (by omega)
      cases sn with
      | none =>
        refine ⟨fun v hv => (by cases hv), fun k' hk a => ?_, fun k r hk => (by cases hk)⟩
        cases hk
        exact (hL a).mono (by omega)
      | some y =>
        obtain ⟨x, cc⟩ := y
        refine ⟨fun v hv => (by cases hv), fun k hk => (by cases hk), fun k' r hk a b => ?_⟩
        cases hk
        apply SeenBy.mono (n := n) (by omega)
        apply hL
        apply b
        unfold interp
        split <;> (split <;> simp)
  | dirty k =>
    simp only [rstep]
    by_cases c : NV.isDirty (σ n).word
    · rw [if_pos c]
      exact ⟨fun v hv => (by cases hv), fun k hk => (by cases hk), fun k r hk => (by cases hk)⟩
    · rw [if_neg c]
      refine ⟨fun v hv => (by cases hv), fun k hk => (by cases hk), fun k' r hk a b => ?_⟩
      cases hk
      exact (h.dirty k rfl (a rfl)).mono (by omega)
  | ikey k v p i =>
    have := keep v rfl (by simp) (by simp)
    revert this
    simp only [rstep]
    split
    · split
      · intro this
        exact ⟨fun v' hv => (by cases hv; exact this rfl), fun k hk => (by cases hk), fun k r hk => (by cases hk)⟩
      · intro this
        exact ⟨fun v' hv => (by cases hv; exact this rfl), fun k hk => (by cases hk), fun k r hk => (by cases hk)⟩
    · intro this
      exact ⟨fun v' hv => (by cases hv; exact this rfl), fun k hk => (by cases hk), fun k r hk => (by cases hk)⟩
  | klx k v p i =>
    have := keep v rfl (by simp) (by simp)
    revert this
    simp only [rstep]
    intro this
    exact ⟨fun v' hv => (by cases hv; exact this rfl), fun k hk => (by cases hk), fun k r hk => (by cases hk)⟩
  | ptr k v p i x =>
    have := keep v rfl (by simp) (by simp)
    revert this
    simp only [rstep]
    split
    · intro this
      exact ⟨fun v' hv => (by cases hv; exact this rfl), fun k hk => (by cases hk), fun k r hk => (by cases hk)⟩
    · split
      · split
        · intro this
          exact ⟨fun v' hv => (by cases hv; exact this rfl), fun k hk => (by cases hk), fun k r hk => (by cases hk)⟩
        · intro this
          exact ⟨fun v' hv => (by cases hv; exact this rfl), fun k hk => (by cases hk), fun k r hk => (by cases hk)⟩
      · split
        · intro this
          exact ⟨fun v' hv => (by cases hv; exact this rfl), fun k hk => (by cases hk), fun k r hk => (by cases hk)⟩
        · intro this
          exact ⟨fun v' hv => (by cases hv; exact this rfl), fun k hk => (by cases hk), fun k r hk => (by cases hk)⟩
  | sufKlx k v p i x =>
    have := keep v rfl (by simp) (by simp)
    revert this
    simp only [rstep]
    split
    · intro this
      exact ⟨fun v' hv => (by cases hv; exact this rfl), fun k hk => (by cases hk), fun k r hk => (by cases hk)⟩
    · intro this
      exact ⟨fun v' hv => (by cases hv; exact this rfl), fun k hk => (by cases hk), fun k r hk => (by cases hk)⟩
  | suf k v p i x =>
    have := keep v rfl (by simp) (by simp)
    revert this
    simp only [rstep]
    split
    · intro this
      exact ⟨fun v' hv => (by cases hv; exact this rfl), fun k hk => (by cases hk), fun k r hk => (by cases hk)⟩
    · intro this
      exact ⟨fun v' hv => (by cases hv; exact this rfl), fun k hk => (by cases hk), fun k r hk => (by cases hk)⟩

end Verif.Race
