import Verif.Proof.CasRaceOwn
set_option linter.unusedVariables false
/-!
# Lock-free inserts and splits on one leaf: C37, C40

Statements about the machine of `Model/CasRace.lean`.  `In p x` says that slot `x` is among the entries of permutation
word `p`; `In`, `Start` and `Exec` are all the vocabulary needed.
-/
namespace Verif.Cas
open Verif.Internode (upd upd_same upd_ne)
open Verif.Perm (size get back insertFromBack swapFreeSlots setSize params24)
open Verif.Tree (PermOK)

/-- A leaf at rest: nobody runs, the permutation is one, every entry has a value pointer of its own. -/
structure Start (s : St) : Prop where
  idle : ∀ i, s.th i = .idle
  unlocked : s.hold = .free
  perm : PermOK s.perm
  vals : ∀ x, In s.perm x → ∃ t, s.cell x = .val t ∧ s.made t = ⟨s.ikey x, s.klx x⟩
  fresh : ∀ x t, s.cell x = .val t → t < s.next
  inj : ∀ x z t, s.cell x = .val t → s.cell z = .val t → x = z

/-- An execution: an infinite sequence of states, each a step from (or equal to) the one before. -/
structure Exec (mixed : Bool) (σ : Nat → St) : Prop where
  start : Start (σ 0)
  step : ∀ n, Step mixed (σ n) (σ (n + 1)) ∨ σ (n + 1) = σ n

theorem Start.base {s : St} (h : Start s) : Base s := by
  refine ⟨?_, fun _ => h.perm, ?_, ?_, ?_⟩
  · intro _ _ e; rw [h.unlocked] at e; cases e
  · rw [h.unlocked]; trivial
  · intro i _ _ _ e; rw [h.idle] at e; cases e
  · intro i _ e; rw [h.idle] at e; cases e

theorem Start.own {s : St} (h : Start s) : Own s := by
  have hn : s.hold.froz = none := by rw [h.unlocked]; rfl
  refine { toBase := h.base, uniq := ?_, cell := ?_, firm := ?_, soft := ?_, data := ?_, pub := ?_, inj := h.inj,
           fresh := h.fresh, ins := by rw [h.unlocked]; rfl }
  · intro i _ _ _ e; rw [h.idle] at e; cases e
  · intro i _ e; rw [h.idle] at e; cases e
  · intro i _ e; rw [h.idle] at e; cases e
  · intro i _ e; rw [h.idle] at e; cases e
  · intro i; rw [h.idle]; trivial
  · intro x hx _
    rw [cur_none hn] at hx
    obtain ⟨t, h1, h2⟩ := h.vals x hx
    exact ⟨t, h1, h.fresh x t h1, h2⟩

theorem Exec.base {m : Bool} {σ : Nat → St} (h : Exec m σ) (n : Nat) : Base (σ n) := by
  induction n with
  | zero => exact h.start.base
  | succ n ih =>
    rcases h.step n with st | e
    · exact ih.step st
    · rw [e]; exact ih

theorem Exec.own {σ : Nat → St} (h : Exec false σ) (n : Nat) : Own (σ n) := by
  induction n with
  | zero => exact h.start.own
  | succ n ih =>
    rcases h.step n with st | e
    · exact ih.step st
    · rw [e]; exact ih

/-! ### C37 -/

/-- C37: two threads that are both about to publish have different slots and different value pointers. -/
theorem C37_claims_disjoint {σ : Nat → St} (h : Exec false σ) (n i j : Nat) (hij : i ≠ j) (y z : Try) (t u : Nat)
    (hi : (σ n).th i = .publish y t) (hj : (σ n).th j = .publish z u) : y.slot ≠ z.slot ∧ t ≠ u := by
  have ho := h.own n
  have hs : y.slot ≠ z.slot := fun e => hij (ho.uniq i j y z (by rw [hi]; rfl) (by rw [hj]; rfl) e)
  refine ⟨hs, fun e => hs ?_⟩
  have h1 := ho.cell i y (by rw [hi]; rfl)
  have h2 := ho.cell j z (by rw [hj]; rfl)
  rw [hi] at h1; rw [hj, ← show t = u from e] at h2
  exact ho.inj _ _ t h1 h2

/-- C37: a publish that succeeds adds exactly its own slot, which was not published before, and the slot holds the key
and the value pointer of the thread that claimed it. -/
theorem C37_publish_is_exclusive {σ : Nat → St} (h : Exec false σ) (n i : Nat) (y : Try) (t : Nat)
    (hi : (σ n).th i = .publish y t) (hp : (σ n).perm = y.p) (a b : Nat) :
    let s' := tstep (σ n) i a b
    ¬ In (σ n).perm y.slot ∧ (∀ x, In s'.perm x ↔ In (σ n).perm x ∨ x = y.slot) ∧ PermOK s'.perm ∧
    s'.cell y.slot = .val t ∧ s'.ikey y.slot = y.o.ikey ∧ s'.klx y.slot = y.o.klx ∧
    s'.cell = (σ n).cell ∧ s'.ikey = (σ n).ikey ∧ s'.klx = (σ n).klx := by
  have ho := h.own n
  have hy := ho.tries i y (by rw [hi]; rfl)
  have hd := ho.data i
  have hc := ho.cell i y (by rw [hi]; rfl)
  rw [hi] at hd hc
  have e : tstep (σ n) i a b = ({ σ n with perm := y.newPerm }).go i .idle := by
    unfold tstep; rw [hi]; exact if_pos hp
  intro s'
  have hs' : s' = ({ σ n with perm := y.newPerm }).go i .idle := e
  rw [hs']
  refine ⟨by rw [hp]; exact slot_not_in hy, fun x => ?_, hy.newPerm, hc, hd.1, hd.2.1, rfl, rfl, rfl⟩
  rw [hp]; exact in_newPerm hy x

/-- C37: in every state that is not frozen every entry of the leaf holds a value pointer, that pointer occurs in no other
slot, and the entry's key is the one the pointer was made for. -/
theorem C37_published_holds_claimants_key {σ : Nat → St} (h : Exec false σ) (n : Nat)
    (hf : Freeze.isFrozen (σ n).perm = false) (x : Nat) (hx : In (σ n).perm x) :
    ∃ t, (σ n).cell x = .val t ∧ (σ n).made t = ⟨(σ n).ikey x, (σ n).klx x⟩ ∧ ∀ z, z ≠ x → (σ n).cell z ≠ .val t := by
  have ho := h.own n
  have hn := ho.not_frozen.mp hf
  obtain ⟨t, h1, _, h3⟩ := ho.pub x (by rw [cur_none hn]; exact hx) (taken_none hn x)
  exact ⟨t, h1, h3, fun z hz e => hz (ho.inj z x t e h1)⟩

/-- C37: an entry taken over by a split is complete when it is taken. -/
theorem C37_split_moves_whole_entries {σ : Nat → St} (h : Exec false σ) (n : Nat) (lv : NV.W) (raw : BitVec 128)
    (sp j : Nat) (hh : (σ n).hold = .take lv raw sp j) (hj : j < size 5 raw) :
    ∃ t, (σ n).cell (get 5 raw j) = .val t ∧ (σ n).made t = ⟨(σ n).ikey (get 5 raw j), (σ n).klx (get 5 raw j)⟩ := by
  have ho := h.own n
  have hraw := (ho.frozen raw sp (by rw [hh]; rfl)).2.1
  obtain ⟨t, h1, _, h3⟩ := ho.pub (get 5 raw j) (by rw [cur_some (sp := sp) (by rw [hh]; rfl)]; exact ⟨j, hj, rfl⟩) (by
    rw [hh]; rintro ⟨k, _, h2, h3⟩
    have := hraw.size_le
    have := hraw.inj k j (by omega) (by omega) h3
    omega)
  exact ⟨t, h1, h3⟩

/-- A step leaves an entry alone unless a split freezes the leaf. -/
theorem entry_step {s s' : St} (h : Own s) (st : Step false s s') (hz : s.hold.froz = none) (hz' : s'.hold.froz = none)
    {x t : Nat} (hx : In s.perm x) (hc : s.cell x = .val t) :
    In s'.perm x ∧ s'.cell x = .val t ∧ s'.ikey x = s.ikey x ∧ s'.klx x = s.klx x := by
  have hcur : cur s = s.perm := cur_none hz
  have hfirm := fun i y (e : (s.th i).held = some y) => h.soft i y e
  have hne : ∀ i y, (s.th i).held = some y → x ≠ y.slot := by
    intro i y e e'
    exact taken_none hz _ (h.soft i y e (by rw [hcur, ← e']; exact hx))
  have hin := h.ins
  cases st with
  | start i o e => exact ⟨hx, hc, rfl, rfl⟩
  | lock hl => exact ⟨hx, hc, rfl, rfl⟩
  | giveUp lv e => exact ⟨hx, hc, rfl, rfl⟩
  | insert lv o hm e => cases hm
  | hold n =>
    unfold hstep at hz' ⊢
    split at hz' <;> rename_i e <;> rw [e] at hz hin <;> first | (cases hz; done) | (cases hin; done) | skip
    · exact ⟨hx, hc, rfl, rfl⟩
    · exact ⟨hx, hc, rfl, rfl⟩
    · exact ⟨hx, hc, rfl, rfl⟩
    · split at hz' <;> rename_i hcnd
      · rw [if_pos hcnd]; exact ⟨hx, hc, rfl, rfl⟩
      · rw [if_neg hcnd]; exact ⟨hx, hc, rfl, rfl⟩
    · split at hz' <;> rename_i hcnd
      · rw [if_pos hcnd]
        split at hz' <;> rename_i hcnd
        · cases hz'
        · rw [if_neg hcnd]; exact ⟨hx, hc, rfl, rfl⟩
      · rw [if_neg hcnd]; exact ⟨hx, hc, rfl, rfl⟩
    · exact ⟨hx, hc, rfl, rfl⟩
  | thread i a b =>
    clear hz'
    have hnei := hne i
    unfold tstep
    split <;> rename_i e
    · exact ⟨hx, hc, rfl, rfl⟩
    · exact ⟨hx, hc, rfl, rfl⟩
    · split <;> exact ⟨hx, hc, rfl, rfl⟩
    · split <;> exact ⟨hx, hc, rfl, rfl⟩
    · split <;> exact ⟨hx, hc, rfl, rfl⟩
    · split
      · rename_i y hn
        have : x ≠ y.slot := by intro e'; rw [← e', hc] at hn; cases hn
        exact ⟨hx, (upd_ne _ _ _ this).trans hc, rfl, rfl⟩
      · exact ⟨hx, hc, rfl, rfl⟩
    · split <;> exact ⟨hx, hc, rfl, rfl⟩
    · exact ⟨hx, hc, upd_ne _ _ _ (hnei _ (by rw [e]; rfl)), rfl⟩
    · exact ⟨hx, hc, rfl, upd_ne _ _ _ (hnei _ (by rw [e]; rfl))⟩
    · split <;> exact ⟨hx, hc, rfl, rfl⟩
    · split
      · exact ⟨hx, (upd_ne _ _ _ (hnei _ (by rw [e]; rfl))).trans hc, rfl, rfl⟩
      · exact ⟨hx, hc, rfl, rfl⟩
    · split <;> exact ⟨hx, hc, rfl, rfl⟩
    · split <;> exact ⟨hx, hc, rfl, rfl⟩
    · rename_i y t'
      split
      · rename_i hp
        have hy := h.tries i y (by rw [e]; rfl)
        exact ⟨(in_newPerm hy x).mpr (.inl (hp ▸ hx)), hc, rfl, rfl⟩
      · exact ⟨hx, hc, rfl, rfl⟩
    · unfold casCell
      split
      · exact ⟨hx, (upd_ne _ _ _ (hnei _ (by rw [e]; rfl))).trans hc, rfl, rfl⟩
      · exact ⟨hx, hc, rfl, rfl⟩
    · unfold casCell
      split
      · exact ⟨hx, (upd_ne _ _ _ (hnei _ (by rw [e]; rfl))).trans hc, rfl, rfl⟩
      · exact ⟨hx, hc, rfl, rfl⟩

/-- C37: an entry once published stays, with its key and value pointer, for as long as no split freezes the leaf, whatever
other threads do. -/
theorem C37_published_stays {σ : Nat → St} (h : Exec false σ) (n d : Nat)
    (hf : ∀ k, k ≤ d → Freeze.isFrozen (σ (n + k)).perm = false) (x t : Nat) (hx : In (σ n).perm x)
    (hc : (σ n).cell x = .val t) :
    In (σ (n + d)).perm x ∧ (σ (n + d)).cell x = .val t ∧ (σ (n + d)).ikey x = (σ n).ikey x ∧
      (σ (n + d)).klx x = (σ n).klx x := by
  induction d with
  | zero => exact ⟨hx, hc, rfl, rfl⟩
  | succ d ih =>
    obtain ⟨h1, h2, h3, h4⟩ := ih (fun k hk => hf k (by omega))
    rcases h.step (n + d) with st | e
    · have ho := h.own (n + d)
      have ho' := h.own (n + d + 1)
      obtain ⟨g1, g2, g3, g4⟩ := entry_step ho st (ho.not_frozen.mp (hf d (by omega)))
        (ho'.not_frozen.mp (hf (d + 1) (by omega))) h1 h2
      exact ⟨g1, g2, g3.trans h3, g4.trans h4⟩
    · rw [show n + (d + 1) = n + d + 1 from rfl, e]; exact ⟨h1, h2, h3, h4⟩

/-! ### C40 -/

/-- C40: while the permutation is frozen no lock-free insert changes it, and one that tries to publish goes on to undo
its claim. -/
theorem C40_no_publish_while_frozen {m : Bool} {σ : Nat → St} (h : Exec m σ) (n : Nat)
    (hf : Freeze.isFrozen (σ n).perm = true) (i a b : Nat) :
    (tstep (σ n) i a b).perm = (σ n).perm ∧
    ∀ y t, (σ n).th i = .publish y t → (tstep (σ n) i a b).th i = .undo y t := by
  have hb := h.base n
  have hpub : ∀ y t, (σ n).th i = .publish y t → (σ n).perm ≠ y.p := by
    intro y t e e'
    have := not_frozen (hb.tries i y (by rw [e]; rfl)).perm
    rw [← e', hf] at this; cases this
  constructor
  · unfold tstep
    split <;> try rfl
    all_goals first
      | (split <;> rfl)
      | (rename_i e; rw [if_neg (hpub _ _ e)]; rfl)
      | (unfold casCell; split <;> rfl)
  · intro y t e
    unfold tstep
    rw [e]
    show (if (σ n).perm = y.p then _ else _ : St).th i = _
    rw [if_neg (hpub y t e)]
    exact upd_same _ _ _

/-- C40: the assertions of `freeze_permutation` never fail. -/
theorem C40_freeze_never_panics {m : Bool} {σ : Nat → St} (h : Exec m σ) (n : Nat) : (σ n).hold ≠ .panicked := by
  intro e; have := (h.base n).hold; rw [e] at this; exact this

/-- One step around the freeze. -/
theorem freeze_step {m : Bool} {s s' : St} (hb : Base s) (st : Step m s s') (hf : s.hold.froz = none)
    (hf' : s'.hold.froz ≠ none) :
    ∃ lv sp, s'.hold = .take lv s.perm sp sp ∧ s'.perm = Freeze.freezeRaw s.perm ∧ 0 < sp ∧ sp < size 5 s.perm := by
  cases st with
  | start i o e => exact absurd hf hf'
  | lock hl => exact absurd rfl hf'
  | giveUp lv e => exact absurd rfl hf'
  | insert lv o hm e => exact absurd rfl hf'
  | thread i a b =>
    refine absurd ?_ hf'
    have : (tstep s i a b).hold = s.hold := by
      unfold tstep
      split <;> try rfl
      all_goals first | (split <;> rfl) | (unfold casCell; split <;> rfl)
    rw [this]; exact hf
  | hold n =>
    unfold hstep at hf' ⊢
    split at hf' <;> rename_i e <;> rw [e] at hf <;> first | (cases hf; done) | skip
    case h_5 =>
      rename_i lv raw
      split at hf' <;> rename_i hp
      · rw [if_pos hp]
        split at hf' <;> rename_i hn
        · rw [if_pos hn]; subst hp; exact ⟨lv, n, rfl, rfl, hn⟩
        · exact absurd (by rw [e]; rfl) hf'
      · exact absurd rfl hf'
    case h_4 => split at hf' <;> exact absurd rfl hf'
    case h_10 => split at hf' <;> exact absurd rfl hf'
    case h_1 => exact absurd (by rw [e]; rfl) hf'
    case h_2 => exact absurd (by rw [e]; rfl) hf'
    all_goals exact absurd rfl hf'

/-- One step while frozen. -/
theorem frozen_step {m : Bool} {s s' : St} (hb : Base s) (st : Step m s s') {raw : BitVec 128} {sp : Nat}
    (hf : s.hold.froz = some (raw, sp)) :
    (s'.hold.froz = some (raw, sp) ∧ s'.perm = s.perm) ∨ (s'.hold.froz = none ∧ s'.perm = setSize 5 raw sp) := by
  cases st with
  | start i o e => exact .inl ⟨hf, rfl⟩
  | lock hl =>
    have hd : NV.isDirty s.word = false := by
      cases hd : NV.isDirty s.word with
      | false => rfl
      | true => rw [not_lockable hd] at hl; cases hl
    rw [hb.free_of_clean hd] at hf; cases hf
  | giveUp lv e => rw [e] at hf; cases hf
  | insert lv o hm e => rw [e] at hf; cases hf
  | thread i a b =>
    refine .inl ?_
    have hpub : ∀ y t, s.th i = .publish y t → s.perm ≠ y.p := by
      intro y t e e'
      have := not_frozen (hb.tries i y (by rw [e]; rfl)).perm
      rw [← e', hb.not_frozen, hf] at this; cases this
    unfold tstep
    split <;> try exact ⟨hf, rfl⟩
    all_goals first
      | (split <;> exact ⟨hf, rfl⟩)
      | (rename_i e; rw [if_neg (hpub _ _ e)]; exact ⟨hf, rfl⟩)
      | (unfold casCell; split <;> exact ⟨hf, rfl⟩)
  | hold n =>
    unfold hstep
    split <;> rename_i e <;> rw [e] at hf <;> first | (cases hf; done) | skip
    · cases hf; refine .inl ?_; split <;> exact ⟨rfl, rfl⟩
    · cases hf; refine .inl ?_; split <;> exact ⟨rfl, rfl⟩
    · cases hf; exact .inr ⟨rfl, rfl⟩

/-- C40: if the permutation is not frozen at `n` and frozen from `n + 1` to `n + d`, then the splitter froze exactly the
permutation of time `n` (so every insert published until then is in its snapshot), chose a split point `sp`, and nothing
changed the word since.  If it is not frozen at `n + d + 1`, it is then the splitter's: that of time `n` cut to the first
`sp` entries. -/
theorem C40_frozen_until_installed {m : Bool} {σ : Nat → St} (h : Exec m σ) (n d : Nat) (hd : 0 < d)
    (h0 : Freeze.isFrozen (σ n).perm = false)
    (hf : ∀ k, 0 < k → k ≤ d → Freeze.isFrozen (σ (n + k)).perm = true) :
    ∃ lv sp, (σ (n + 1)).hold = .take lv (σ n).perm sp sp ∧ 0 < sp ∧ sp < size 5 (σ n).perm ∧
      (∀ k, 0 < k → k ≤ d → (σ (n + k)).perm = Freeze.freezeRaw (σ n).perm) ∧
      (Freeze.isFrozen (σ (n + d + 1)).perm = false → (σ (n + d + 1)).perm = setSize 5 (σ n).perm sp) := by
  have hz := (h.base n).not_frozen.mp h0
  have h1 : (σ (n + 1)).hold.froz ≠ none := by
    intro e
    have := (h.base (n + 1)).not_frozen.mpr e
    rw [hf 1 (by omega) hd] at this; cases this
  rcases h.step n with st | e
  · obtain ⟨lv, sp, e1, e2, e3, e4⟩ := freeze_step (h.base n) st hz h1
    have hall : ∀ k, k < d → (σ (n + (k + 1))).hold.froz = some ((σ n).perm, sp) ∧
        (σ (n + (k + 1))).perm = Freeze.freezeRaw (σ n).perm := by
      intro k
      induction k with
      | zero => intro _; exact ⟨by rw [show n + (0 + 1) = n + 1 from rfl, e1]; rfl, e2⟩
      | succ k ih =>
        intro hk
        obtain ⟨i1, i2⟩ := ih (by omega)
        rcases h.step (n + (k + 1)) with st | e
        · rcases frozen_step (h.base _) st i1 with ⟨g1, g2⟩ | ⟨g1, g2⟩
          · exact ⟨g1, g2.trans i2⟩
          · have := (h.base (n + (k + 1) + 1)).not_frozen.mpr g1
            rw [show n + (k + 1) + 1 = n + (k + 1 + 1) from rfl, hf (k + 1 + 1) (by omega) (by omega)] at this; cases this
        · rw [show n + (k + 1 + 1) = n + (k + 1) + 1 from rfl, e]; exact ⟨i1, i2⟩
    refine ⟨lv, sp, e1, e3, e4, ?_, ?_⟩
    · intro k hk0 hk
      obtain ⟨k', rfl⟩ := Nat.exists_eq_add_of_lt hk0
      have := (hall k' (by omega)).2
      rw [show n + (k' + 1) = n + (0 + k' + 1) from by omega] at this
      exact this
    · intro hu
      obtain ⟨d', rfl⟩ : ∃ d', d = d' + 1 := ⟨d - 1, by omega⟩
      obtain ⟨i1, i2⟩ := hall d' (by omega)
      rcases h.step (n + (d' + 1)) with st | e
      · rcases frozen_step (h.base _) st i1 with ⟨g1, g2⟩ | ⟨g1, g2⟩
        · rw [g2, i2, freeze_frozen] at hu; cases hu
        · exact g2
      · rw [e, i2, freeze_frozen] at hu; cases hu
  · rw [e] at h1; exact absurd hz h1

/-- C40: an unfrozen word is what every lock-free insert works from: the permutation it loaded is a valid one. -/
theorem C40_loaded_permutation_valid {m : Bool} {σ : Nat → St} (h : Exec m σ) (n i : Nat) (o : Op) (v : NV.W)
    (p : BitVec 128) (hi : (σ n).th i = .search o v p) : PermOK p ∧ Freeze.isFrozen p = false := by
  have := (h.base n).search i o v p hi
  exact ⟨this, not_frozen this⟩

/-! ### Schedules -/

/-- One entry of a schedule. -/
inductive Act where
  | start (i : Nat) (o : Op)
  | thread (i pos off : Nat)
  | lock
  | hold (n : Nat)
  | insert (o : Op)

/-- Effect of an entry; one that is not possible does nothing. -/
def act (m : Bool) (s : St) : Act → St
  | .start i o => if s.th i = .idle then s.go i (.ver o) else s
  | .thread i pos off => tstep s i pos off
  | .lock =>
    if NV.lockable s.word = true then { s with word := NV.lockedOf s.word, hold := .locked (NV.lockedOf s.word) } else s
  | .hold n => hstep s n
  | .insert o =>
    match m, s.hold with
    | true, .locked lv => { s with hold := .iload lv o }
    | _, _ => s

/-- State after the first `n` entries. -/
def trace (m : Bool) (s : St) (as : List Act) (n : Nat) : St := (as.take n).foldl (act m) s

theorem act_step (m : Bool) (s : St) (a : Act) : Step m s (act m s a) ∨ act m s a = s := by
  cases a with
  | start i o =>
    by_cases h : s.th i = .idle
    · left; rw [show act m s (.start i o) = s.go i (.ver o) from if_pos h]; exact .start s i o h
    · right; exact if_neg h
  | thread i pos off => exact .inl (.thread s i pos off)
  | lock =>
    by_cases h : NV.lockable s.word = true
    · left
      rw [show act m s .lock = { s with word := NV.lockedOf s.word, hold := .locked (NV.lockedOf s.word) } from if_pos h]
      exact .lock s h
    · right; exact if_neg h
  | hold n => exact .inl (.hold s n)
  | insert o =>
    show Step m s (match m, s.hold with | true, .locked lv => { s with hold := .iload lv o } | _, _ => s) ∨
      (match m, s.hold with | true, .locked lv => { s with hold := .iload lv o } | _, _ => s : St) = s
    split
    · rename_i lv e; exact .inl (.insert s lv o rfl e)
    · exact .inr rfl

theorem trace_exec (m : Bool) {s : St} (h : Start s) (as : List Act) : Exec m (trace m s as) := by
  refine ⟨h, fun n => ?_⟩
  unfold trace
  by_cases hn : n < as.length
  · rw [List.take_succ_eq_append_getElem hn, List.foldl_append]
    exact act_step m _ _
  · rw [List.take_of_length_le (by omega), List.take_of_length_le (by omega)]; exact .inr rfl

/-- A leaf with no entries. -/
def emptyLeaf : St :=
  { perm := Verif.Perm.initial 128 5 24, ikey := fun _ => 0, klx := fun _ => 0, cell := fun _ => .null,
    word := NV.new true, hold := .free, th := fun _ => .idle, next := 0, made := fun _ => ⟨0, 0⟩ }

theorem emptyLeaf_start : Start emptyLeaf := by
  refine ⟨fun _ => rfl, rfl, Verif.Tree.permOK_initial, ?_, ?_, ?_⟩
  · rintro x ⟨k, hk, _⟩
    have : size 5 emptyLeaf.perm = 0 := Verif.Tree.size_initial
    omega
  · intro x t e; cases e
  · intro x z t e; cases e

/-- A whole lock-free insert by thread `i` up to the point where it is about to publish. -/
def upToPublish (i : Nat) (o : Op) (pos off : Nat) : List Act :=
  [.start i o] ++ List.replicate 12 (.thread i pos off)

/-- C37, the limit of the protocol: an insert that runs under the lock as the crate's locked path does today (it takes the
back slot without looking for claims, and stores the permutation it computed from an earlier load) can destroy an insert
that the lock-free path has reported as done.  Here thread 0 publishes key `(7, 8)` and reports success while another
thread holds the lock to insert `(9, 8)`; afterwards the leaf has one entry, under the key 9. -/
theorem C37_mixed_with_locked_inserts_loses_a_key :
    ∃ σ, Exec true σ ∧ ∃ n y t, (σ n).th 0 = .publish y t ∧ (σ n).perm = y.p ∧ y.o = ⟨7, 8⟩ ∧
      σ (n + 1) = tstep (σ n) 0 0 0 ∧
      ∃ m, n < m ∧ (σ m).hold = .free ∧ (∀ k, k ≤ m → Freeze.isFrozen (σ k).perm = false) ∧
        size 5 (σ m).perm = 1 ∧ ∀ x, In (σ m).perm x → (σ m).ikey x = 9 := by
  let as : List Act := upToPublish 0 ⟨7, 8⟩ 0 0 ++ [.lock, .insert ⟨9, 8⟩, .hold 0, .thread 0 0 0,
    .hold 0, .hold 0, .hold 0, .hold 0, .hold 0]
  have hpc : ∃ y t, (trace true emptyLeaf as 16).th 0 = .publish y t ∧ (trace true emptyLeaf as 16).perm = y.p ∧
      y.o = ⟨7, 8⟩ := by
    refine ⟨⟨⟨7, 8⟩, NV.new true, Verif.Perm.initial 128 5 24, 0, 0⟩, 0, ?_, ?_, rfl⟩ <;> decide +kernel
  obtain ⟨y, t, h1, h2, h3⟩ := hpc
  refine ⟨trace true emptyLeaf as, trace_exec true emptyLeaf_start as, 16, y, t, h1, h2, h3, rfl, 22, by omega, ?_, ?_, ?_, ?_⟩
  · decide +kernel
  · have : ∀ k, k < 23 → Freeze.isFrozen (trace true emptyLeaf as k).perm = false := by decide +kernel
    exact fun k hk => this k (by omega)
  · decide +kernel
  · rintro x ⟨k, hk, rfl⟩
    have h4 : size 5 (trace true emptyLeaf as 22).perm = 1 := by decide +kernel
    have : k = 0 := by omega
    subst this
    decide +kernel

/-- The hypotheses of the C37 theorems are met: two threads claim different slots, one publishes, the other's attempt then
fails, it retries and publishes too. -/
theorem C37_witness :
    let as : List Act := upToPublish 0 ⟨7, 8⟩ 0 0 ++ upToPublish 1 ⟨9, 8⟩ 0 1 ++
      [.thread 0 0 0, .thread 1 0 0, .thread 1 0 0] ++ upToPublish 1 ⟨9, 8⟩ 1 0 ++ [.thread 1 0 0]
    let σ := trace false emptyLeaf as
    Exec false σ ∧
    (∃ y t, (σ 26).th 0 = .publish y t ∧ (σ 26).perm = y.p) ∧ (∃ y t, (σ 26).th 1 = .publish y t) ∧
    (∃ y t, (σ 28).th 1 = .undo y t) ∧
    size 5 (σ 43).perm = 2 ∧ (σ 43).ikey (get 5 (σ 43).perm 0) = 7 ∧ (σ 43).ikey (get 5 (σ 43).perm 1) = 9 := by
  intro as σ
  refine ⟨trace_exec false emptyLeaf_start as, ⟨⟨⟨7, 8⟩, NV.new true, Verif.Perm.initial 128 5 24, 0, 0⟩, 0, ?_, ?_⟩,
    ⟨⟨⟨9, 8⟩, NV.new true, Verif.Perm.initial 128 5 24, 0, 1⟩, 1, ?_⟩,
    ⟨⟨⟨9, 8⟩, NV.new true, Verif.Perm.initial 128 5 24, 0, 1⟩, 1, ?_⟩, ?_, ?_, ?_⟩ <;> decide +kernel

/-- The hypotheses of the C40 theorems are met: with two entries in the leaf, thread 2 is about to publish when a splitter
freezes the permutation; its attempt fails, and the splitter installs the first entry alone. -/
theorem C40_witness :
    let as : List Act := upToPublish 0 ⟨7, 8⟩ 0 0 ++ [.thread 0 0 0] ++ upToPublish 1 ⟨9, 8⟩ 1 0 ++ [.thread 1 0 0] ++
      upToPublish 2 ⟨11, 8⟩ 2 0 ++ [.lock, .hold 0, .hold 0, .hold 1, .thread 2 0 0, .hold 0, .hold 0, .hold 0, .hold 0, .hold 0]
    let σ := trace false emptyLeaf as
    Exec false σ ∧ Freeze.isFrozen (σ 44).perm = false ∧ (∀ k, 0 < k → k ≤ 5 → Freeze.isFrozen (σ (44 + k)).perm = true) ∧
    Freeze.isFrozen (σ 50).perm = false ∧ size 5 (σ 44).perm = 2 ∧ size 5 (σ 50).perm = 1 ∧ (σ 51).hold = .free := by
  intro as σ
  refine ⟨trace_exec false emptyLeaf_start as, ?_, ?_, ?_, ?_, ?_, ?_⟩
  · decide +kernel
  · have : ∀ k, k < 6 → 0 < k → Freeze.isFrozen (trace false emptyLeaf as (44 + k)).perm = true := by decide +kernel
    exact fun k h1 h2 => this k (by omega) h1
  all_goals decide +kernel

end Verif.Cas
