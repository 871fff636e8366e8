import Verif.Proof.LeafRaceLin
import Mathlib.Tactic.ByContra
import Verif.Spec.LeafView
/-!
# Lookups of whole executions
-/
namespace Verif.Race
open Verif.Perm (size get back insertFromBack)
open Verif.Tree
open Verif.Internode (upd)
variable {V : Type}

theorem rstep_key (b : Leaf V) (w : NV.W) (pc : RPc V) : (rstep b w pc).key = pc.key := by
  cases pc with
  | idle => rfl
  | stable k => simp only [rstep]; split <;> rfl
  | perm k v => rfl
  | ikey k v p i => simp only [rstep]; split; · split <;> rfl
                    rfl
  | klx k v p i => rfl
  | ptr k v p i x =>
    simp only [rstep]
    split
    · rfl
    · split
      · split <;> rfl
      · split <;> rfl
  | sufKlx k v p i c => simp only [rstep]; split <;> rfl
  | suf k v p i c => simp only [rstep]; split <;> rfl
  | check k v sn =>
    simp only [rstep]
    split
    · rfl
    · split <;> rfl
  | dirty k => simp only [rstep]; split <;> rfl
  | done k r => rfl

theorem secs_mono {hasPrev : Bool} {s s' : St V} (h : Step hasPrev s s') : s.secs ≤ s'.secs := by
  cases h <;> simp

theorem exec_secs {hasPrev : Bool} {σ : Nat → St V} {N : Nat} (h : Exec hasPrev σ N) {a : Nat} :
    ∀ {b : Nat}, a ≤ b → b ≤ N → (σ a).secs ≤ (σ b).secs := by
  intro b
  induction b with
  | zero => intro h1 _; have : a = 0 := by omega
            subst this; exact Nat.le_refl _
  | succ b ih =>
    intro h1 h2
    by_cases e : a = b + 1
    · subst e; exact Nat.le_refl _
    · exact Nat.le_trans (ih (by omega) (by omega)) (secs_mono (h b (by omega)))

theorem exec_inv {hasPrev : Bool} {σ : Nat → St V} {N : Nat} (h : Exec hasPrev σ N) (h0 : WInv (σ 0)) :
    ∀ n, n ≤ N → WInv (σ n) := by
  intro n
  induction n with
  | zero => intro _; exact h0
  | succ n ih => intro hn; exact (ih (by omega)).step (h n (by omega))

/-- The lookup of `k` by reader `i` runs from step `n0` to step `n1` and ends with `r`. -/
structure Lookup (σ : Nat → St V) (i n0 n1 : Nat) (k : Key) (r : Out V) : Prop where
  le : n0 ≤ n1
  first : (σ n0).rd i = .stable k
  during : ∀ n, n0 ≤ n → n < n1 → ∀ k' r', (σ n).rd i ≠ .done k' r'
  last : (σ n1).rd i = .done k r

theorem lookup_rinv {nc : Prop} {hasPrev : Bool} {σ : Nat → St V} {N : Nat} (he : Exec hasPrev σ N) (h0 : WInv (σ 0))
    {i n0 n1 : Nat} (hN : n1 ≤ N) {k : Key} {r : Out V} (hl : Lookup σ i n0 n1 k r)
    (hs : (σ n1).secs - (σ n0).secs < 2 ^ 19) (hc : nc → ∀ n, n0 ≤ n → n ≤ n1 → ¬ IsConf (σ n).todo) :
    ∀ d, n0 + d ≤ n1 → RInv nc σ n0 (n0 + d) ((σ (n0 + d)).rd i) ∧ ((σ (n0 + d)).rd i).key = some k := by
  intro d
  induction d with
  | zero =>
    intro _
    simp only [Nat.add_zero]
    rw [hl.first]
    exact ⟨⟨fun v hv => (by cases hv), fun k hk => (by cases hk), fun k r hk => (by cases hk)⟩, rfl⟩
  | succ d ih =>
    intro hd
    obtain ⟨I, hk⟩ := ih (by omega)
    have hnd := hl.during (n0 + d) (by omega) (by omega)
    have hs1 := exec_secs he (a := n0) (b := n0 + d) (by omega) (by omega)
    have hs2 := exec_secs he (a := n0 + d) (b := n1) (by omega) (by omega)
    have hW := exec_inv he h0 (n0 + d) (by omega)
    have st := he (n0 + d) (by omega)
    have hc' : nc → ¬ IsConf (σ (n0 + d + 1)).todo := fun a => hc a _ (by omega) (by omega)
    have hother : (σ (n0 + d + 1)).rd i = (σ (n0 + d)).rd i →
        RInv nc σ n0 (n0 + (d + 1)) ((σ (n0 + (d + 1))).rd i) ∧ ((σ (n0 + (d + 1))).rd i).key = some k := by
      intro e
      have := RInv.other (by omega) st hc' I
      rw [show n0 + (d + 1) = n0 + d + 1 by omega, e]
      exact ⟨this, hk⟩
    have hni : (σ (n0 + d)).rd i ≠ .idle := by intro e; rw [e] at hk; cases hk
    generalize hσ : σ (n0 + d) = s at *
    generalize hσ' : σ (n0 + d + 1) = s' at *
    cases st with
    | start j k' hj =>
      apply hother
      by_cases e : i = j
      · subst e
        rcases hj with hj | ⟨_, _, hj⟩
        · exact absurd hj hni
        · exact absurd hj (hnd _ _)
      · show upd s.rd j _ i = _
        unfold upd; rw [if_neg e]
    | read j =>
      by_cases e : i = j
      · subst e
        have hrd : upd s.rd i (rstep s.b s.word (s.rd i)) i = rstep s.b s.word (s.rd i) := by
          unfold upd; rw [if_pos rfl]
        show RInv nc σ n0 (n0 + (d + 1)) (upd s.rd i (rstep s.b s.word (s.rd i)) i) ∧
          RPc.key (upd s.rd i (rstep s.b s.word (s.rd i)) i) = some k
        rw [hrd]
        refine ⟨?_, by rw [rstep_key]; exact hk⟩
        have := RInv.own (σ := σ) (n0 := n0) (n := n0 + d) (nc := nc) (pc := s.rd i) (by omega) (by rw [hσ]; exact hW)
          (by rw [hσ', hσ]) (by rw [hσ', hσ]) (by rw [hσ', hσ]) (by rw [hσ', hσ]) (by rw [hσ]; exact hs1)
          (by rw [hσ]; omega) I hnd hni
        rw [hσ] at this
        exact this
      · apply hother
        show upd s.rd j _ i = _
        unfold upd; rw [if_neg e]
    | lock op hl hk => exact hother rfl
    | store m ms hm => exact hother rfl
    | unlock ht hl => exact hother rfl

/-- Every lookup returns what a lookup alone would have returned at some moment during it. -/
theorem lookup_seen {nc : Prop} {hasPrev : Bool} {σ : Nat → St V} {N : Nat} (he : Exec hasPrev σ N) (h0 : WInv (σ 0))
    {i n0 n1 : Nat} (hN : n1 ≤ N) {k : Key} {r : Out V} (hl : Lookup σ i n0 n1 k r)
    (hs : (σ n1).secs - (σ n0).secs < 2 ^ 19) (hc : nc → ∀ n, n0 ≤ n → n ≤ n1 → ¬ IsConf (σ n).todo)
    (h1 : r = .absent → nc) (h2 : r ≠ .absent → 0 < searchKlx k ∨ nc) : SeenBy σ n0 n1 k r := by
  have h := lookup_rinv he h0 hN hl hs hc (n1 - n0) (by have := hl.le; omega)
  rw [show n0 + (n1 - n0) = n1 by have := hl.le; omega, hl.last] at h
  exact h.1.done k r rfl h1 h2

/-- A search that finds something finds what the leaf says. -/
theorem sees_of_seqFind {b : Leaf V} {k : Key} {r : Out V} (h : seqFind b k = r) (hr : r ≠ .misread) : Sees b k r := by
  unfold seqFind at h
  cases hg : searchGet b k 0 (size 5 b.perm) with
  | none =>
    rw [hg] at h
    subst h
    intro j hj hn
    have hm := searchGet_none hg j (by omega) (by omega)
    constructor
    · rintro ⟨h1, h2⟩
      unfold slotMatches at hm
      rw [if_neg (by simp [h1])] at hm
      split at hm
      · exact hn (by assumption)
      · rcases searchKlx_cases k with ⟨c1, c2, _⟩ | ⟨c1, c2, c3, _⟩
        · rw [c1, if_pos rfl] at h2
          rw [if_pos (by rw [h2.1, c2])] at hm
          rw [if_pos (by rw [h2.1]; rfl)] at hm
          have : b.suf (get 5 b.perm j) = some k.suffix := by
            unfold Leaf.suf; rw [if_pos (by rw [h2.1]; rfl)]; exact h2.2
          simp [this] at hm
        · rw [c1] at h2
          simp only [Bool.false_eq_true, if_false] at h2
          rw [if_pos (by rw [h2, c2])] at hm
          rw [if_neg (by unfold ksufKeylenx; omega)] at hm
          cases hm
    · rintro ⟨h1, h2, h3⟩
      unfold slotMatches at hm
      rw [if_neg (by simp [h1])] at hm
      split at hm
      · exact hn (by assumption)
      · rcases searchKlx_cases k with ⟨c1, c2, _⟩ | ⟨c1, c2, c3, _⟩
        · rw [if_neg (by omega)] at hm
          simp [layerKeylenx, h2, h3] at hm
        · rw [c1] at h3; cases h3
  | some s =>
    rw [hg] at h
    obtain ⟨j, _, h2, h3, h4⟩ := searchGet_some hg
    subst h3
    simp only at h
    unfold slotMatches at h4
    split at h4
    · cases h4
    · rename_i hik
      have hik : b.ikey (get 5 b.perm j) = k.ikey := by simpa using hik
      split at h4
      · cases h4
      · by_cases hx : layerKeylenx ≤ b.klx (get 5 b.perm j)
        · have hx' : 128 ≤ b.klx (get 5 b.perm j) := hx
          unfold interp at h
          rw [if_pos hx] at h
          have hsuf : k.hasSuffix = true := by
            rcases searchKlx_cases k with ⟨c1, c2, _⟩ | ⟨c1, c2, c3, _⟩
            · exact c1
            · rw [if_neg (by omega)] at h4
              simp [hx, c1] at h4
          split at h
          · subst h
            exact ⟨j, by omega, ⟨hik, hx', hsuf⟩, by assumption⟩
          · exact absurd h.symm hr
        · unfold interp at h
          rw [if_neg hx] at h
          split at h
          · subst h
            refine ⟨j, by omega, ⟨hik, ?_⟩, by assumption⟩
            split at h4
            · rename_i hkx
              rcases searchKlx_cases k with ⟨c1, c2, _⟩ | ⟨c1, c2, c3, _⟩
              · rw [c1, if_pos rfl]
                have e64 : b.klx (get 5 b.perm j) = 64 := by omega
                rw [if_pos (by rw [e64]; rfl)] at h4
                refine ⟨e64, ?_⟩
                have h5 : b.suf (get 5 b.perm j) = some k.suffix := by simpa using h4
                unfold Leaf.suf at h5
                rw [if_pos (by rw [e64]; rfl)] at h5
                exact h5
              · rw [c1]; simp only [Bool.false_eq_true, if_false]; omega
            · simp [hx] at h4
          · exact absurd h.symm hr

/-- Every slot in use holds what its `keylenx` says. -/
def Clean (b : Leaf V) : Prop := ∀ j, j < size 5 b.perm → b.cell (get 5 b.perm j) = .null ∨
  (128 ≤ b.klx (get 5 b.perm j) ∧ ∃ q, b.cell (get 5 b.perm j) = .layer q) ∨
  (b.klx (get 5 b.perm j) < 128 ∧ ∃ v, b.cell (get 5 b.perm j) = .val v)

theorem Clean.find {b : Leaf V} (h : Clean b) (k : Key) : seqFind b k ≠ .misread := by
  unfold seqFind
  cases hg : searchGet b k 0 (size 5 b.perm) with
  | none => simp
  | some s =>
    obtain ⟨j, _, h2, h3, h4⟩ := searchGet_some hg
    subst h3
    simp only
    have hn : b.cell (get 5 b.perm j) ≠ .null := by
      intro e
      unfold slotMatches at h4
      rw [e] at h4
      split at h4 <;> cases h4
    unfold interp
    rcases h j (by omega) with h | ⟨h, q, hq⟩ | ⟨h, v, hv⟩
    · exact absurd h hn
    · rw [if_pos (show layerKeylenx ≤ _ from h), hq]; simp
    · rw [if_neg (show ¬ layerKeylenx ≤ _ from by unfold layerKeylenx; omega), hv]; simp

theorem BodyOK.clean {b : Leaf V} {lo : Nat} {hi : Option Nat} (h : BodyOK b lo hi) : Clean b := by
  intro j hj
  cases h.ok j hj with
  | inline hk v hc => exact Or.inr (Or.inr ⟨Nat.lt_of_le_of_lt hk (by decide), v, hc⟩)
  | suffix hk v hc => exact Or.inr (Or.inr ⟨by show (b.ent j).klx < 128; omega, v, hc⟩)
  | layer hk q hc => exact Or.inr (Or.inl ⟨by show 128 ≤ (b.ent j).klx; omega, q, hc⟩)

theorem WInv.clean {s : St V} (h : WInv s) : Clean s.b := by
  cases h with
  | free ht hb hw => exact BodyOK.clean hb
  | busy b0 op done hb hk hp he u hu hw =>
    rcases reads_perm hb hk hp with h | ⟨_, h⟩
    · rw [← he] at h
      intro j hj
      rw [h] at hj
      have hr := reads hb hp hj
      rw [← he] at hr
      rw [h]
      have hc := BodyOK.clean hb j hj
      cases hr.2 with
      | same h1 h2 h3 hd => rw [h1, h3]; exact hc
      | upd ht hp' h1 h2 v v' hv hv' hn =>
        rw [h1, hv]
        rw [hv'] at hc
        rcases hc with hc | ⟨_, q, hc⟩ | ⟨hc, _⟩
        · cases hc
        · cases hc
        · exact Or.inr (Or.inr ⟨hc, v, rfl⟩)
      | gone q hq hp' h0 hx hc' => exact Or.inl hc'
      | layer q hq hp' h0 ht hx hc' ks hd => exact Or.inr (Or.inl ⟨by omega, q, hc'⟩)
    · rw [← he] at h; exact BodyOK.clean h

/-- In a quiet leaf the search is exact. -/
theorem sees_iff {b : Leaf V} {lo : Nat} {hi : Option Nat} (hb : BodyOK b lo hi) {k : Key} {r : Out V} :
    Sees b k r ↔ seqFind b k = r := by
  constructor
  · intro h
    cases r with
    | misread => exact h.elim
    | absent =>
      apply seqFind_absent hb
      intro j hj hm
      have hn : b.cell (get 5 b.perm j) ≠ .null := by
        intro e
        have e : (b.ent j).cell = .null := e
        cases hb.ok j hj with
        | inline hk v hc => rw [hc] at e; cases e
        | suffix hk v hc => rw [hc] at e; cases e
        | layer hk q hc => rw [hc] at e; cases e
      obtain ⟨h1, h2⟩ := h j hj hn
      obtain ⟨m1, m2⟩ := hm
      have m1 : b.ikey (get 5 b.perm j) = k.ikey := m1
      rcases m2 with ⟨m2, m3⟩ | ⟨m2, m3⟩
      · apply h1
        refine ⟨m1, ?_⟩
        have m2 : b.klx (get 5 b.perm j) = searchKlx k := m2
        rcases searchKlx_cases k with ⟨c1, c2, _⟩ | ⟨c1, c2, c3, _⟩
        · rw [c1, if_pos rfl]
          have m4 := m3 (by show b.klx (get 5 b.perm j) = 64; omega)
          have m4 : b.suf (get 5 b.perm j) = some k.suffix := m4
          unfold Leaf.suf at m4
          rw [if_pos (by unfold ksufKeylenx; omega)] at m4
          exact ⟨by omega, m4⟩
        · rw [c1]; simp only [Bool.false_eq_true, if_false]; omega
      · have m2 : b.klx (get 5 b.perm j) = 128 := m2
        exact h2 ⟨m1, by omega, m3⟩
    | value v =>
      obtain ⟨j, hj, ⟨h1, h2⟩, h3⟩ := h
      have hm : Matches (b.ent j) k := by
        refine ⟨h1, Or.inl ?_⟩
        show b.klx (get 5 b.perm j) = _ ∧ (b.klx (get 5 b.perm j) = 64 → b.suf (get 5 b.perm j) = _)
        rcases searchKlx_cases k with ⟨c1, c2, _⟩ | ⟨c1, c2, c3, _⟩
        · rw [c1, if_pos rfl] at h2
          refine ⟨by omega, fun _ => ?_⟩
          unfold Leaf.suf; rw [if_pos (by unfold ksufKeylenx; omega)]; exact h2.2
        · rw [c1] at h2; simp only [Bool.false_eq_true, if_false] at h2
          exact ⟨by omega, fun e => by omega⟩
      rw [seqFind_match hb hj hm, h3]
      unfold interp
      rw [if_neg]
      · rcases BodyOK.clean hb j hj with h | ⟨_, q, h⟩ | ⟨h, _⟩
        · rw [h3] at h; cases h
        · rw [h3] at h; cases h
        · unfold layerKeylenx; omega
    | descend q =>
      obtain ⟨j, hj, ⟨h1, h2, h2'⟩, h3⟩ := h
      have hm : Matches (b.ent j) k := by
        refine ⟨h1, Or.inr ⟨?_, h2'⟩⟩
        have h2 : 128 ≤ (b.ent j).klx := h2
        cases hb.ok j hj with
        | inline hk v hc => omega
        | suffix hk v hc => omega
        | layer hk q hc => exact hk
      rw [seqFind_match hb hj hm, h3]
      unfold interp
      rw [if_pos (show layerKeylenx ≤ _ from h2)]
  · intro h
    apply sees_of_seqFind h
    rintro rfl
    exact (BodyOK.clean hb).find k h

/-- A leaf says one thing about a key. -/
theorem sees_unique {b : Leaf V} {lo : Nat} {hi : Option Nat} (hb : BodyOK b lo hi) {k : Key} {r r' : Out V}
    (h : Sees b k r) (h' : Sees b k r') : r = r' := ((sees_iff hb).1 h).symm.trans ((sees_iff hb).1 h')

theorem sees_exists {b : Leaf V} {lo : Nat} {hi : Option Nat} (hb : BodyOK b lo hi) (k : Key) : ∃ r, Sees b k r :=
  ⟨_, (sees_iff hb).2 rfl⟩

theorem sees_congr {b b' : Leaf V} (hp : b'.perm = b.perm)
    (h : ∀ j, j < size 5 b.perm → b'.ikey (get 5 b.perm j) = b.ikey (get 5 b.perm j) ∧
      b'.klx (get 5 b.perm j) = b.klx (get 5 b.perm j) ∧ b'.ksuf (get 5 b.perm j) = b.ksuf (get 5 b.perm j) ∧
      b'.cell (get 5 b.perm j) = b.cell (get 5 b.perm j)) (k : Key) (r : Out V) : Sees b' k r ↔ Sees b k r := by
  cases r with
  | misread => exact Iff.rfl
  | value v =>
    unfold Sees; simp only
    rw [hp]
    apply exists_congr; intro j
    apply and_congr_right; intro hj
    obtain ⟨h1, h2, h3, h4⟩ := h j hj
    simp only [SlotIs, h1, h2, h3, h4]
  | descend v =>
    unfold Sees; simp only
    rw [hp]
    apply exists_congr; intro j
    apply and_congr_right; intro hj
    obtain ⟨h1, h2, h3, h4⟩ := h j hj
    simp only [SlotLeads, h1, h2, h4]
  | absent =>
    unfold Sees; simp only
    rw [hp]
    apply forall_congr'; intro j
    apply imp_congr_right; intro hj
    obtain ⟨h1, h2, h3, h4⟩ := h j hj
    simp only [SlotIs, SlotLeads, h1, h2, h3, h4]

theorem SlotIs.same {b : Leaf V} {s : Nat} {k k' : Key} (h : SlotIs b s k) (h' : SlotIs b s k') : SameKey k k' := by
  obtain ⟨h1, h2⟩ := h
  obtain ⟨h1', h2'⟩ := h'
  refine ⟨h1.symm.trans h1', ?_⟩
  rcases searchKlx_cases k with ⟨c1, _, _⟩ | ⟨c1, _, c3, _⟩ <;>
    rcases searchKlx_cases k' with ⟨d1, _, _⟩ | ⟨d1, _, d3, _⟩ <;> rw [c1] at h2 ⊢ <;> rw [d1] at h2' ⊢ <;>
    simp only [if_true, Bool.false_eq_true, if_false] at h2 h2' ⊢
  · refine ⟨trivial, ?_⟩
    rw [h2.2] at h2'; simpa using h2'.2
  · omega
  · omega
  · exact ⟨trivial, by omega⟩

theorem SlotIs.of_same {b : Leaf V} {s : Nat} {k k' : Key} (h : SlotIs b s k') (h' : SameKey k k') : SlotIs b s k := by
  obtain ⟨h1, h2⟩ := h
  obtain ⟨e1, e2, e3⟩ := h'
  refine ⟨h1.trans e1.symm, ?_⟩
  rw [← e2] at h2
  split
  · rename_i c; rw [if_pos c] at h2 e3; rw [e3]; exact h2
  · rename_i c; rw [if_neg c] at h2 e3; rw [e3]; exact h2

theorem SlotIs.lt {b : Leaf V} {s : Nat} {k : Key} (h : SlotIs b s k) : b.klx s < 128 := by
  obtain ⟨_, h2⟩ := h
  rcases searchKlx_cases k with ⟨c1, _, _⟩ | ⟨c1, _, c3, _⟩ <;> rw [c1] at h2 <;>
    simp only [if_true, Bool.false_eq_true, if_false] at h2 <;> omega

theorem sees_change {b b' : Leaf V} (hb : BodyOK b 0 none) (hb' : BodyOK b' 0 none) {t : Nat} {ko : Key} {vo : V}
    (hset : ∀ s, (∃ j, j < size 5 b'.perm ∧ get 5 b'.perm j = s) ↔ s = t ∨ ∃ j, j < size 5 b.perm ∧ get 5 b.perm j = s)
    (hsame : ∀ s, s ≠ t → b'.ikey s = b.ikey s ∧ b'.klx s = b.klx s ∧ b'.ksuf s = b.ksuf s ∧ b'.cell s = b.cell s)
    (h0 : (∃ j, j < size 5 b.perm ∧ get 5 b.perm j = t) → SlotIs b t ko) (h1 : SlotIs b' t ko) (h2 : b'.cell t = .val vo)
    (k : Key) (r : Out V) : Sees b' k r ↔ (SameKey k ko ∧ r = .value vo) ∨ (¬ SameKey k ko ∧ Sees b k r) := by
  by_cases hs : SameKey k ko
  · have hv : Sees b' k (.value vo) := by
      obtain ⟨j, hj, e⟩ := (hset t).2 (Or.inl rfl)
      exact ⟨j, hj, by rw [e]; exact h1.of_same hs, by rw [e]; exact h2⟩
    constructor
    · intro h; exact Or.inl ⟨hs, sees_unique hb' h hv⟩
    · rintro (⟨_, h⟩ | ⟨h, _⟩)
      · rw [h]; exact hv
      · exact absurd hs h
  · have key : ∀ r, Sees b' k r → Sees b k r := by
      intro r h
      cases r with
      | misread => exact h.elim
      | value v =>
        obtain ⟨j, hj, h3, h4⟩ := h
        have ht : get 5 b'.perm j ≠ t := by
          intro e; rw [e] at h3; exact hs (h3.same h1)
        rcases (hset _).1 ⟨j, hj, rfl⟩ with e | ⟨j', hj', e⟩
        · exact absurd e ht
        · obtain ⟨a1, a2, a3, a4⟩ := hsame _ ht
          refine ⟨j', hj', ?_, ?_⟩
          · rw [e]; simp only [SlotIs, a1, a2, a3] at h3; exact h3
          · rw [e, ← a4]; exact h4
      | descend q =>
        obtain ⟨j, hj, h3, h4⟩ := h
        have ht : get 5 b'.perm j ≠ t := by
          intro e; rw [e] at h3; have := h1.lt; have := h3.2.1; omega
        rcases (hset _).1 ⟨j, hj, rfl⟩ with e | ⟨j', hj', e⟩
        · exact absurd e ht
        · obtain ⟨a1, a2, a3, a4⟩ := hsame _ ht
          refine ⟨j', hj', ?_, ?_⟩
          · rw [e]; simp only [SlotLeads, a1, a2] at h3; exact h3
          · rw [e, ← a4]; exact h4
      | absent =>
        intro j hj hn
        by_cases ht : get 5 b.perm j = t
        · have h0' := h0 ⟨j, hj, ht⟩
          rw [ht]
          refine ⟨fun h => hs (h.same h0'), fun h => ?_⟩
          have := h0'.lt; have := h.2.1; omega
        · obtain ⟨j', hj', e⟩ := (hset (get 5 b.perm j)).2 (Or.inr ⟨j, hj, rfl⟩)
          obtain ⟨a1, a2, a3, a4⟩ := hsame _ ht
          have := h j' hj' (by rw [e, a4]; exact hn)
          rw [e] at this
          simpa only [SlotIs, SlotLeads, a1, a2, a3] using this
    constructor
    · intro h; exact Or.inr ⟨hs, key r h⟩
    · rintro (⟨h, _⟩ | ⟨_, h⟩)
      · exact absurd h hs
      · obtain ⟨r', hr'⟩ := sees_exists hb' k
        rw [sees_unique hb h (key r' hr')]
        exact hr'

/-- Before its last store a writer's work is invisible. -/
theorem plan_hidden {b : Leaf V} (hb : BodyOK b 0 none) {op : WOp V} (hk : KeyOK op.k) {done todo : List (Micro V)}
    (hp : PlanSpec b op (done ++ todo)) (hc : ¬ IsConf (done ++ todo)) (ht : todo ≠ []) (k : Key) (r : Out V) :
    Sees (runM b done) k r ↔ Sees b k r := by
  rcases reads_perm hb hk hp with h | ⟨h, _⟩
  · refine sees_congr h (fun j hj => ?_) k r
    obtain ⟨h1, h2⟩ := reads hb hp hj
    refine ⟨h1, ?_⟩
    cases h2 with
    | same h1 h2 h3 _ => exact ⟨h1, h2, h3⟩
    | upd h => exact absurd h ht
    | gone q hq => exact absurd ⟨_, _, hq⟩ hc
    | layer q hq => exact absurd ⟨_, _, hq⟩ hc
  · exact absurd h ht

/-- Its last store makes exactly its own key visible. -/
theorem plan_effect {b : Leaf V} (hb : BodyOK b 0 none) {op : WOp V} (hk : KeyOK op.k) {l : List (Micro V)}
    (hp : PlanSpec b op l) (hc : ¬ IsConf l) (hl : l ≠ []) (k : Key) (r : Out V) :
    Sees (runM b l) k r ↔ (SameKey k op.k ∧ r = .value op.v) ∨ (¬ SameKey k op.k ∧ Sees b k r) := by
  have hb' := plan_body hb hk hp
  cases hp with
  | none => exact absurd rfl hl
  | conflict => exact absurd ⟨_, _, rfl⟩ hc
  | update j hj hm v hcell hkx =>
    have e : runM b [.cell (get 5 b.perm j) (.val op.v)] = { b with cell := upd b.cell (get 5 b.perm j) (.val op.v) } := rfl
    have hslot : SlotIs b (get 5 b.perm j) op.k := by
      refine ⟨hm.1, ?_⟩
      have hkx : b.klx (get 5 b.perm j) = searchKlx op.k := hkx
      rcases searchKlx_cases op.k with ⟨c1, c2, _⟩ | ⟨c1, c2, c3, _⟩
      · rw [c1, if_pos rfl]
        rcases hm.2 with ⟨m2, m3⟩ | ⟨m2, _⟩
        · have m4 := m3 (by show b.klx (get 5 b.perm j) = 64; omega)
          have m4 : b.suf (get 5 b.perm j) = some op.k.suffix := m4
          unfold Leaf.suf at m4
          rw [if_pos (by unfold ksufKeylenx; omega)] at m4
          exact ⟨by omega, m4⟩
        · have m2 : b.klx (get 5 b.perm j) = 128 := m2
          omega
      · rw [c1]; simp only [Bool.false_eq_true, if_false]; omega
    rw [e] at hb' ⊢
    refine sees_change hb hb' (t := get 5 b.perm j) ?_ ?_ (fun _ => hslot) hslot ?_ k r
    · intro s
      constructor
      · intro h; exact Or.inr h
      · rintro (h | h)
        · exact ⟨j, hj, h.symm⟩
        · exact h
    · intro s hs
      exact ⟨rfl, rfl, rfl, by show upd b.cell _ _ s = _; unfold Verif.Internode.upd; rw [if_neg hs]⟩
    · show upd b.cell _ _ _ = _; unfold Verif.Internode.upd; rw [if_pos rfl]
  | insert p1 pos hs hpos hp1 hz hg h1 h2 h3 =>
    have e := runM_insert b (back 5 24 p1) op.k op.v (insertFromBack 5 24 p1 pos).1
    rw [e] at hb' ⊢
    have hg' : ∀ j, j < 24 → get 5 (insertFromBack 5 24 p1 pos).1 j =
        if j < pos then get 5 p1 j else if j = pos then back 5 24 p1 else get 5 p1 (j - 1) := by
      intro j hj
      rw [Verif.Perm.get_insertFromBack Verif.Perm.params24 p1 (by omega) (by omega) (by omega)]
      rfl
    have hsz : size 5 (insertFromBack 5 24 p1 pos).1 = b.n + 1 := by
      rw [Verif.Perm.size_insertFromBack Verif.Perm.params24 p1 (by omega) (by omega), hz]
    have hslot : SlotIs { assignSlot b (back 5 24 p1) op.k op.v with perm := (insertFromBack 5 24 p1 pos).1 }
        (back 5 24 p1) op.k := by
      unfold SlotIs assignSlot
      split <;> simp [Verif.Internode.upd, ksufKeylenx, *]
    refine sees_change hb hb' (t := back 5 24 p1) ?_ ?_ ?_ hslot ?_ k r
    · intro s
      have hbn : b.n < 24 := hs
      constructor
      · rintro ⟨j, hj, rfl⟩
        have hj : j < b.n + 1 := by rw [← hsz]; exact hj
        show get 5 (insertFromBack 5 24 p1 pos).1 j = _ ∨ ∃ j', _ ∧ _ = get 5 (insertFromBack 5 24 p1 pos).1 j
        rw [hg' j (by omega)]
        split
        · exact Or.inr ⟨j, by show j < b.n; omega, (hg j (by omega)).symm⟩
        · split
          · exact Or.inl rfl
          · exact Or.inr ⟨j - 1, by show j - 1 < b.n; omega, (hg (j - 1) (by omega)).symm⟩
      · rintro (rfl | ⟨j, hj, rfl⟩)
        · refine ⟨pos, by show pos < size 5 (insertFromBack 5 24 p1 pos).1; omega, ?_⟩
          show get 5 (insertFromBack 5 24 p1 pos).1 pos = _
          rw [hg' pos (by omega)]; simp
        · have hj : j < b.n := hj
          by_cases c : j < pos
          · refine ⟨j, by show j < size 5 (insertFromBack 5 24 p1 pos).1; omega, ?_⟩
            show get 5 (insertFromBack 5 24 p1 pos).1 j = _
            rw [hg' j (by omega), if_pos c, hg j hj]
          · refine ⟨j + 1, by show j + 1 < size 5 (insertFromBack 5 24 p1 pos).1; omega, ?_⟩
            show get 5 (insertFromBack 5 24 p1 pos).1 (j + 1) = _
            rw [hg' (j + 1) (by omega), if_neg (by omega), if_neg (by omega), Nat.add_sub_cancel, hg j hj]
    · intro s hs'
      unfold assignSlot
      split <;> simp [Verif.Internode.upd, hs']
    · rintro ⟨j, hj, ej⟩
      have := back_free hp1 hz hs (j := j) hj
      rw [hg j hj] at this
      exact absurd ej this
    · unfold assignSlot
      split <;> simp [Verif.Internode.upd]

/-- A writer that stores nothing found a sublayer to descend into, or a leaf with at most one free slot (it splits). -/
theorem plan_nil {b : Leaf V} (hb : BodyOK b 0 none) {hasPrev : Bool} {op : WOp V} (h : plan b hasPrev op = []) :
    (∃ q, Sees b op.k (.descend q)) ∨ 23 ≤ size 5 b.perm := by
  have H := search_insert_spec hb op.k
  unfold plan at h
  generalize searchForInsert b op.k 0 (size 5 b.perm) = f at H h
  cases H with
  | found j hj hm v hc hk =>
    have hc' : b.cell (get 5 b.perm j) = .val v := hc
    simp [hc'] at h
  | layer j hj hi hs hk q hc =>
    exact Or.inl ⟨q, j, hj, ⟨hi, by have hk : b.klx (get 5 b.perm j) = 128 := hk
                                    omega, hs⟩, hc⟩
  | conflict j hj hi hs hk v hc s hsf hne hs0 hsl => simp [conflictPlan] at h
  | notFound pos hp h1 h2 h3 =>
    right
    simp only at h
    by_contra c
    rw [if_neg (by unfold leafWidth; omega)] at h
    have hne : ∀ s p, insertPlan s op.k op.v p ≠ [] := by
      intro s p; unfold insertPlan; split <;> simp
    split at h
    · rename_i c2
      split at h
      · exact hne _ _ h
      · rename_i ha
        -- the slot next to the back is free and is not slot 0
        have e : leafWidth - size 5 b.perm - 1 = (leafWidth - size 5 b.perm - 2) + 1 := by unfold leafWidth; omega
        rw [e, findAlt] at ha
        have h22 : get 5 b.perm (23 - 1) ≠ 0 := by
          intro e
          have e2 : get 5 b.perm 23 = 0 := c2.1
          have := hb.perm.inj 22 23 (by omega) (by omega) (e.trans e2.symm)
          omega
        rw [if_pos] at ha
        · cases ha
        · show Verif.Perm.backAtOffset 5 24 b.perm 1 ≠ 0
          exact h22
    · exact hne _ _ h

/-- The critical section that starts at step `n` with the writer `op` has not ended at step `m`. -/
structure Section (hasPrev : Bool) (σ : Nat → St V) (n m : Nat) (op : WOp V) : Prop where
  lt : n < m
  locked : NV.lockable (σ n).word = true
  key : KeyOK op.k
  first : σ (n + 1) = { σ n with word := NV.lockedOf (σ n).word, todo := plan (σ n).b hasPrev op }
  during : (σ m).secs = (σ n).secs

theorem section_run {hasPrev : Bool} {σ : Nat → St V} {N : Nat} (he : Exec hasPrev σ N) (h0 : WInv (σ 0)) {n : Nat}
    {op : WOp V} : ∀ {m}, m ≤ N → Section hasPrev σ n m op →
    BodyOK (σ n).b 0 none ∧ (∃ u, NV.Idle u ∧ (σ m).word = NV.lockedOf u) ∧
    ∃ done, (σ m).b = runM (σ n).b done ∧ done ++ (σ m).todo = plan (σ n).b hasPrev op := by
  intro m
  induction m with
  | zero => intro _ h; exact absurd h.lt (by omega)
  | succ m ih =>
    intro hm h
    by_cases e : n = m
    · subst e
      have hW := exec_inv he h0 n (by omega)
      cases hW with
      | busy b0 op' done h1 h2 h3 h4 u h5 h6 =>
        have := h.locked; rw [h6, locked_not_lockable h5] at this; cases this
      | free h1 h2 h3 =>
        refine ⟨h2, ⟨(σ n).word, h3, by rw [h.first]⟩, [], by rw [h.first]; rfl, by rw [h.first]; rfl⟩
    · have hlt := h.lt
      have s1 := exec_secs he (a := n) (b := m) (by omega) (by omega)
      have s2 := secs_mono (he m (by omega))
      have hd := h.during
      obtain ⟨i1, ⟨u, i2, i3⟩, done, i4, i5⟩ := ih (by omega) ⟨by omega, h.locked, h.key, h.first, by omega⟩
      have st := he m (by omega)
      have hsec : (σ (m + 1)).secs = (σ m).secs := by omega
      generalize σ (m + 1) = s' at *
      refine ⟨i1, locked_step st hsec ⟨u, i2, i3⟩, ?_⟩
      generalize σ m = s at *
      cases st with
      | start j k' hj => exact ⟨done, i4, i5⟩
      | read j => exact ⟨done, i4, i5⟩
      | lock op hl hk => rw [i3, locked_not_lockable i2] at hl; cases hl
      | unlock ht hl => simp at hsec
      | store mi ms hmi =>
        refine ⟨done ++ [mi], ?_, ?_⟩
        · show mi.app s.b = _
          rw [runM_append, ← i4]; rfl
        · show done ++ [mi] ++ ms = _
          rw [← i5, hmi]; simp

end Verif.Race
