import Verif.Proof.ChainRace
set_option linter.unusedSimpArgs false
set_option linter.unusedVariables false
/-!
# Every step keeps the invariant of the chain
-/
namespace Verif.Chain
open Verif.Internode (upd upd_same upd_ne)
open Verif.Perm (size get makeSorted24 setSize params24)
open Verif.Tree (PermOK permOK_insert permOK_setSize permOK_initial size_initial permOK_makeSorted size_makeSorted
  get_makeSorted Leaf Cell)
open Verif.Cas (In locked_bits dirty_split not_lockable Try)
open Verif.Store (permOK_swap)
variable {V : Type}

theorem newForSplit_bits (w : NV.W) : NV.isLocked (NV.newForSplit w) = true ∧ NV.isDirty (NV.newForSplit w) = true := by
  have h : ∀ a : NV.W, (a ||| NV.LOCK ||| NV.SPLITTING) &&& NV.LOCK ≠ 0#32 ∧ (a ||| NV.LOCK ||| NV.SPLITTING) &&& NV.DIRTY ≠ 0#32 := by
    intro a
    have e1 : (a ||| NV.LOCK ||| NV.SPLITTING) &&& NV.LOCK = NV.LOCK := by
      apply BitVec.eq_of_getLsbD_eq; intro i hi
      simp only [BitVec.getLsbD_and, BitVec.getLsbD_or]
      cases h1 : NV.LOCK.getLsbD i <;> simp
    have e2 : ((a ||| NV.LOCK ||| NV.SPLITTING) &&& NV.DIRTY) &&& NV.SPLITTING = NV.SPLITTING := by
      apply BitVec.eq_of_getLsbD_eq; intro i hi
      simp only [BitVec.getLsbD_and, BitVec.getLsbD_or, NV.DIRTY]
      cases h1 : NV.SPLITTING.getLsbD i <;> simp
    constructor
    · rw [e1]; decide
    · intro e; rw [e] at e2; revert e2; decide
  have := h (w &&& NV.ISLEAF)
  exact ⟨by simpa [NV.isLocked, NV.newForSplit] using this.1, by simpa [NV.isDirty, NV.newForSplit] using this.2⟩

/-- The stores that turn a value into a sublayer, one by one. -/
theorem convStore_cases (b : Leaf V) (t q st : Nat) :
    (st = 0 ∧ convStore b t q st = { b with cell := upd b.cell t .null }) ∨
    (st = 1 ∧ convStore b t q st = { b with ksuf := upd b.ksuf t none }) ∨
    (st = 2 ∧ convStore b t q st = { b with klx := upd b.klx t 0 }) ∨
    (st = 3 ∧ convStore b t q st = { b with klx := upd b.klx t 128 }) ∨
    (st = 4 ∧ convStore b t q st = { b with cell := upd b.cell t (.layer q) }) ∨
    (5 ≤ st ∧ convStore b t q st = b) := by
  match st with
  | 0 => exact .inl ⟨rfl, rfl⟩
  | 1 => exact .inr (.inl ⟨rfl, rfl⟩)
  | 2 => exact .inr (.inr (.inl ⟨rfl, rfl⟩))
  | 3 => exact .inr (.inr (.inr (.inl ⟨rfl, rfl⟩)))
  | 4 => exact .inr (.inr (.inr (.inr (.inl ⟨rfl, rfl⟩))))
  | n + 5 => exact .inr (.inr (.inr (.inr (.inr ⟨by omega, rfl⟩))))

theorem convStore_perm (b : Leaf V) (t q st : Nat) : (convStore b t q st).perm = b.perm := by
  rcases convStore_cases b t q st with ⟨_, e⟩ | ⟨_, e⟩ | ⟨_, e⟩ | ⟨_, e⟩ | ⟨_, e⟩ | ⟨_, e⟩ <;> rw [e]

theorem convStore_ikey (b : Leaf V) (t q st : Nat) : (convStore b t q st).ikey = b.ikey := by
  rcases convStore_cases b t q st with ⟨_, e⟩ | ⟨_, e⟩ | ⟨_, e⟩ | ⟨_, e⟩ | ⟨_, e⟩ | ⟨_, e⟩ <;> rw [e]

theorem convStore_ne (b : Leaf V) {t t' : Nat} (q st : Nat) (h : t' ≠ t) :
    (convStore b t q st).klx t' = b.klx t' ∧ (convStore b t q st).ksuf t' = b.ksuf t' ∧
    (convStore b t q st).cell t' = b.cell t' := by
  rcases convStore_cases b t q st with ⟨_, e⟩ | ⟨_, e⟩ | ⟨_, e⟩ | ⟨_, e⟩ | ⟨_, e⟩ | ⟨_, e⟩ <;> rw [e] <;>
    refine ⟨?_, ?_, ?_⟩ <;> first | rfl | exact upd_ne _ _ _ h

theorem convNext_new (lv : NV.W) (t q st : Nat) : (convNext lv t q st).new = none := by
  unfold convNext; split <;> rfl

theorem convNext_ne (lv : NV.W) (t q st : Nat) : convNext lv t q st ≠ .free := by
  unfold convNext; split <;> simp

theorem upd_id {α : Type} (f : Nat → α) (x : Nat) : upd f x (f x) = f := by
  funext z; rw [upd_if]; split
  · rename_i e; rw [e]
  · rfl

/-- Positions of the permutation that publishes a slot. -/
theorem get_newPerm {y : Try} (h : y.Ok) :
    size 5 y.newPerm = size 5 y.p + 1 ∧
    ∀ k, k ≤ size 5 y.p → get 5 y.newPerm k = if k < y.pos then get 5 y.p k else if k = y.pos then y.slot else get 5 y.p (k - 1) := by
  have ho := h.off
  have hp := h.pos
  unfold Try.newPerm Try.slot
  split
  · rename_i e
    refine ⟨Verif.Perm.size_insertFromBack params24 _ (by omega) (by omega), ?_⟩
    intro k hk
    rw [Verif.Perm.get_insertFromBack params24 _ (i := y.pos) (by omega) (by omega) (by omega), e]
  · have hsz : size 5 (Verif.Perm.swapFreeSlots 5 y.p 23 (23 - y.off)) = size 5 y.p := by
      rw [Verif.Perm.swapFreeSlots_eq_exchange, Verif.Perm.size_exchange params24]
    have hg : ∀ k, k < 24 → get 5 (Verif.Perm.swapFreeSlots 5 y.p 23 (23 - y.off)) k =
        if k = 23 then get 5 y.p (23 - y.off) else if k = 23 - y.off then get 5 y.p 23 else get 5 y.p k := by
      intro k hk
      rw [Verif.Perm.swapFreeSlots_eq_exchange, Verif.Perm.get_exchange params24 _ (by omega) (by omega) hk]
    refine ⟨by rw [Verif.Perm.size_insertFromBack params24 _ (by omega) (by omega), hsz], ?_⟩
    intro k hk
    rw [Verif.Perm.get_insertFromBack params24 _ (i := y.pos) (by omega) (by omega) (by omega)]
    by_cases h1 : k < y.pos
    · rw [if_pos h1, if_pos h1, hg k (by omega), if_neg (by omega), if_neg (by omega)]
    · rw [if_neg h1, if_neg h1]
      by_cases h2 : k = y.pos
      · rw [if_pos h2, if_pos h2, hg 23 (by omega), if_pos rfl]
      · rw [if_neg h2, if_neg h2, hg (k - 1) (by omega), if_neg (by omega), if_neg (by omega)]

theorem freeSlot_iff (p : BitVec 128) (t : Nat) : freeSlot p t = true ↔ ¬ In p t := by
  unfold freeSlot
  rw [decide_eq_true_iff]
  constructor
  · rintro h ⟨j, hj, e⟩; exact h j hj e
  · intro h j hj e; exact h ⟨j, hj, e⟩

/-- Only readers moved. -/
theorem Inv.of_rd {s s' : St V} (h : Inv s) (h1 : s'.leaf = s.leaf) (h2 : s'.hold = s.hold) (h3 : s'.live = s.live)
    (h4 : s'.used = s.used) : Inv s' := by
  obtain ⟨l, hd, lv, u, r⟩ := s
  obtain ⟨l', hd', lv', u', r'⟩ := s'
  simp only at h1 h2 h3 h4
  subst h1 h2 h3 h4
  exact ⟨h.word, h.thawed, h.frozen, h.gone, h.sorted, h.low, h.high, h.link, h.chain, h.inj, h.zero, h.used, h.busy, h.own,
    h.new, h.uniq, h.cut, h.jle, h.set⟩

/-- What `Inv` says of a leaf whose holder is not splitting. -/
theorem Inv.still {s : St V} (h : Inv s) {x : Nat} (hn : (s.hold x).new = none) (hl : s.live x = true) :
    PermOK (s.leaf x).b.perm ∧
    (∀ i j, i < j → j < size 5 (s.leaf x).b.perm →
      (s.leaf x).b.ikey (get 5 (s.leaf x).b.perm i) ≤ (s.leaf x).b.ikey (get 5 (s.leaf x).b.perm j)) ∧
    (∀ i, i < size 5 (s.leaf x).b.perm → (s.leaf x).lo ≤ (s.leaf x).b.ikey (get 5 (s.leaf x).b.perm i)) ∧
    ((s.leaf x).nx ≠ 0 → ∀ i, i < size 5 (s.leaf x).b.perm →
      (s.leaf x).b.ikey (get 5 (s.leaf x).b.perm i) < (s.leaf (s.leaf x).nx).lo) := by
  have hf := (new_none hn).1
  have h1 := h.sorted x
  have h2 := h.low x hl
  have h3 := h.high x hl
  rw [cur_none hf] at h1 h2 h3
  exact ⟨h.thawed x hf, h1, h2, h3⟩

theorem Inv.free_of_clean {s : St V} (h : Inv s) {x : Nat} (hw : NV.isDirty (s.leaf x).word = false) :
    s.hold x = .free := by
  by_contra e
  rw [(h.word x e).2] at hw; cases hw

/-- One store of a conversion keeps the invariant. -/
theorem Inv.convStep {s s' : St V} (h : Inv s) {x t q st : Nat} {lv : NV.W} (h0 : s.hold x ≠ .free) (h1 : s.hold x ≠ .newborn)
    (hn : (s.hold x).new = none)
    (hleaf : s'.leaf = upd s.leaf x { s.leaf x with b := convStore (s.leaf x).b t q st })
    (hhold : s'.hold = upd s.hold x (convNext lv t q st)) (hlive : s'.live = s.live) (hused : s'.used = s.used) : Inv s' := by
  have hl := h.own x h0 h1
  have hs := h.still hn hl
  refine h.quiet (l := { s.leaf x with b := convStore (s.leaf x).b t q st }) (h' := convNext lv t q st) hleaf hhold hlive hused rfl rfl
    hn (convNext_new _ _ _ _) hl (fun _ => h.word x h0) ?_ ?_ ?_ ?_
  · show PermOK (convStore _ _ _ _).perm
    rw [convStore_perm]; exact hs.1
  · simp only [convStore_perm, convStore_ikey]; exact hs.2.1
  · simp only [convStore_perm, convStore_ikey]; exact hs.2.2.1
  · simp only [convStore_perm, convStore_ikey]; exact hs.2.2.2

theorem Inv.hstep {s : St V} (h : Inv s) (x : Nat) : Inv (hstep s x) := by
  unfold Chain.hstep
  split
  case h_1 lv raw sp y j e =>
    have hz : (s.hold x).froz = some (raw, sp, y) := by rw [e]; rfl
    have hf := h.frozen x raw sp y hz
    have hcnt : (s.hold x).cnt = j := by rw [e]; rfl
    obtain ⟨hf1, hpo, hsp0, hsp1, hlo1, hyp0, hc1, hc2, hcopy⟩ := hf
    have hg := h.gone x raw sp y hz
    rw [hcnt] at hc1 hc2 hcopy hg
    split
    · rename_i hj
      refine h.mid (y := y) (raw := raw) (sp := sp) (h' := .clear lv raw sp y j) hz rfl rfl rfl rfl rfl
        rfl rfl rfl rfl rfl rfl rfl rfl rfl ⟨by show sp ≤ j + 1; omega, by show j + 1 ≤ _; omega⟩ ?_ ?_ (by intro _ _ e; cases e; exact hc1)
      · intro t h1 h2
        have h2 : t < j + 1 := h2
        show upd (s.leaf y).b.ikey (j - sp) _ (t - sp) = _
        by_cases h3 : t = j
        · subst h3; rw [upd_same]
        · rw [upd_ne _ _ _ (by omega)]; exact hcopy t h1 (by omega)
      · intro t h1 h2
        have h2 : t < j + 1 := h2
        show upd (s.leaf x).b.cell (get 5 raw j) _ (get 5 raw t) = _
        rw [upd_if]
        split
        · rfl
        · rename_i h3
          have : t ≠ j := by rintro rfl; exact h3 rfl
          exact hg t h1 (by omega)
    · refine h.mid (y := y) (raw := raw) (sp := sp) (lx := s.leaf x) (ly := s.leaf y) (h' := .unfreeze lv raw sp y)
        hz rfl ?_ rfl rfl rfl rfl rfl rfl rfl rfl rfl rfl rfl rfl
        ⟨by show sp ≤ size 5 raw; omega, Nat.le_refl _⟩ ?_ ?_ (by intro _ _ e; cases e)
      · rw [upd_id, upd_id]
      · intro t h1 h2
        have h2 : t < size 5 raw := h2
        exact hcopy t h1 (by omega)
      · intro t h1 h2
        have h2 : t < size 5 raw := h2
        exact hg t h1 (by omega)
  case h_2 lv raw sp y j e =>
    have hz : (s.hold x).froz = some (raw, sp, y) := by rw [e]; rfl
    have hf := h.frozen x raw sp y hz
    have hcnt : (s.hold x).cnt = j + 1 := by rw [e]; rfl
    obtain ⟨hf1, hpo, hsp0, hsp1, hlo1, hyp0, hc1, hc2, hcopy⟩ := hf
    have hg := h.gone x raw sp y hz
    rw [hcnt] at hc1 hc2 hcopy hg
    have hnew := h.new x y (froz_new hz)
    have hyx : y ≠ x := by
      rintro rfl
      have := hnew.1; rw [hnew.2.2.1] at this; cases this
    split
    · refine h.mid (y := y) (raw := raw) (sp := sp) (ly := s.leaf y) (h' := .take lv raw sp y (j + 1)) hz rfl
        (lx := { s.leaf x with b := { (s.leaf x).b with
          klx := upd (s.leaf x).b.klx (get 5 raw j) 0, ksuf := upd (s.leaf x).b.ksuf (get 5 raw j) none } })
        ?_ rfl rfl rfl rfl rfl rfl rfl rfl rfl rfl rfl rfl ⟨hc1, hc2⟩ hcopy hg (by intro _ _ e; cases e)
      rw [upd_id]
    · refine h.mid (y := y) (raw := raw) (sp := sp) (lx := s.leaf x) (ly := s.leaf y) (h' := .take lv raw sp y (j + 1))
        hz rfl ?_ rfl rfl rfl rfl rfl rfl rfl rfl rfl rfl rfl rfl ⟨hc1, hc2⟩ hcopy hg (by intro _ _ e; cases e)
      rw [upd_id, upd_id]
  case h_3 lv raw sp y e =>
    exact h.unfreeze e rfl rfl rfl rfl rfl rfl rfl rfl rfl rfl rfl rfl rfl rfl
  case h_4 lv y e =>
    refine h.cutStep (y := y) (lx := { s.leaf x with mark := true }) (ly := s.leaf y) (h' := .setNext lv y)
      (by rw [e]; rfl) rfl ?_ rfl rfl rfl rfl rfl rfl rfl rfl rfl rfl (by intro _ e; cases e)
    rw [upd_id]
  case h_5 lv y e =>
    have hc : (s.hold x).cut = some y := by rw [e]; rfl
    have hnew := h.new x y (cut_new hc)
    have hyx : y ≠ x := by
      rintro rfl
      have := hnew.1; rw [hnew.2.2.1] at this; cases this
    refine h.cutStep (y := y) (lx := s.leaf x) (ly := { s.leaf y with nx := (s.leaf x).nx }) (h' := .publish lv y)
      hc rfl ?_ rfl rfl rfl rfl rfl rfl rfl rfl rfl rfl (by intro _ _; rfl)
    funext z
    show upd s.leaf y _ z = _
    rw [upd_if, upd_if, upd_if]
    split
    · rename_i e; subst e; rw [if_neg hyx]
    · split
      · rename_i e; rw [e]
      · rfl
  case h_6 lv y e =>
    exact h.link' e rfl rfl rfl rfl rfl rfl rfl rfl
  case h_7 lv e =>
    have hl := h.own x (by rw [e]; simp) (by rw [e]; simp)
    have hn : (s.hold x).new = none := by rw [e]; rfl
    have hs := h.still hn hl
    exact h.quiet (l := { s.leaf x with word := NV.unlockOf lv }) (h' := .free) rfl rfl rfl rfl rfl rfl hn rfl hl
      (by intro e; exact absurd rfl e) hs.1 hs.2.1 hs.2.2.1 hs.2.2.2
  case h_8 lv t q st e =>
    exact h.convStep (by rw [e]; simp) (by rw [e]; simp) (by rw [e]; rfl) rfl rfl rfl rfl
  case h_9 => exact h

theorem Inv.act {s : St V} (h : Inv s) (f : Bool) (a : Act V) : Inv (act f s a) := by
  cases a with
  | lock x =>
    unfold Chain.act
    simp only
    split
    · rename_i hc
      have hd : NV.isDirty (s.leaf x).word = false := by
        cases hd : NV.isDirty (s.leaf x).word with
        | false => rfl
        | true => rw [not_lockable hd] at hc; cases hc.2
      have hfree := h.free_of_clean hd
      have hn : (s.hold x).new = none := by rw [hfree]; rfl
      have hs := h.still hn hc.1
      exact h.quiet (l := { s.leaf x with word := NV.lockedOf (s.leaf x).word }) (h' := .locked _) rfl rfl rfl rfl rfl rfl
        hn rfl hc.1 (fun _ => locked_bits hc.2) hs.1 hs.2.1 hs.2.2.1 hs.2.2.2
    · exact h
  | write x t ik kl c sf =>
    unfold Chain.act
    simp only
    split
    · rename_i lv e
      split
      · rename_i hf
        rw [freeSlot_iff] at hf
        have hl := h.own x (by rw [e]; simp) (by rw [e]; simp)
        have hn : (s.hold x).new = none := by rw [e]; rfl
        have hs := h.still hn hl
        have hik : ∀ i, i < size 5 (s.leaf x).b.perm →
            (setSlot (s.leaf x).b t ik kl c sf).ikey (get 5 (s.leaf x).b.perm i) = (s.leaf x).b.ikey (get 5 (s.leaf x).b.perm i) := by
          intro i hi
          exact upd_ne _ _ _ (by intro e; exact hf ⟨i, hi, e⟩)
        refine h.quiet (l := { s.leaf x with b := setSlot (s.leaf x).b t ik kl c sf }) (h' := s.hold x) rfl ?_ rfl rfl rfl rfl
          hn hn hl (h.word x) hs.1 ?_ ?_ ?_
        · rw [upd_id]
        · intro i j hij hj
          have hj : j < size 5 (s.leaf x).b.perm := hj
          have := hs.2.1 i j hij hj
          rw [← hik i (by omega), ← hik j hj] at this; exact this
        · intro i hi
          have := hs.2.2.1 i hi
          rw [← hik i hi] at this; exact this
        · intro hx i hi
          have := hs.2.2.2 hx i hi
          rw [← hik i hi] at this; exact this
      · exact h
    · exact h
  | publish x pos off =>
    unfold Chain.act
    simp only
    split
    · rename_i lv e
      split
      · rename_i hc
        obtain ⟨hpos, hoff, hfit⟩ := hc
        have hl := h.own x (by rw [e]; simp) (by rw [e]; simp)
        have hn : (s.hold x).new = none := by rw [e]; rfl
        have hs := h.still hn hl
        have hy : (⟨⟨0, 0⟩, 0#32, (s.leaf x).b.perm, pos, off⟩ : Try).Ok := ⟨hs.1, hpos, hoff⟩
        have hg := get_newPerm hy
        have hok := hy.newPerm
        unfold fits at hfit
        have hfit := of_decide_eq_true hfit
        revert hg hok hfit
        generalize hyy : (⟨⟨0, 0⟩, 0#32, (s.leaf x).b.perm, pos, off⟩ : Try) = y
        have hyp : y.p = (s.leaf x).b.perm := by rw [← hyy]
        have hypos : y.pos = pos := by rw [← hyy]
        rw [hyp, hypos]
        rintro ⟨hsz, hg⟩ hok ⟨hf1, hf2, -, hf3, hf4, -⟩
        refine h.quiet (l := { s.leaf x with b := { (s.leaf x).b with perm := y.newPerm } }) (h' := s.hold x) rfl ?_ rfl rfl rfl rfl
          hn hn hl (h.word x) hok ?_ ?_ ?_
        · rw [upd_id]
        · intro i j hij hj
          show (s.leaf x).b.ikey (get 5 y.newPerm i) ≤ (s.leaf x).b.ikey (get 5 y.newPerm j)
          have hj : j < size 5 y.newPerm := hj
          rw [hsz] at hj
          rw [hg i (by omega), hg j (by omega)]
          by_cases h1 : j < pos
          · rw [if_pos h1, if_pos (by omega)]; exact hs.2.1 i j hij (by omega)
          · rw [if_neg h1]
            by_cases h2 : j = pos
            · rw [if_pos h2, if_pos (by omega)]; exact hf1 i (by omega)
            · rw [if_neg h2]
              by_cases h3 : i < pos
              · rw [if_pos h3]
                exact hs.2.1 i (j - 1) (by omega) (by omega)
              · rw [if_neg h3]
                by_cases h4 : i = pos
                · rw [if_pos h4]; exact hf2 (j - 1) (by omega) (by omega)
                · rw [if_neg h4]; exact hs.2.1 (i - 1) (j - 1) (by omega) (by omega)
        · intro i hi
          show (s.leaf x).lo ≤ (s.leaf x).b.ikey (get 5 y.newPerm i)
          have hi : i < size 5 y.newPerm := hi
          rw [hsz] at hi
          rw [hg i (by omega)]
          split
          · exact hs.2.2.1 i (by omega)
          · split
            · exact hf3
            · exact hs.2.2.1 (i - 1) (by omega)
        · intro hx i hi
          show (s.leaf x).b.ikey (get 5 y.newPerm i) < (s.leaf (s.leaf x).nx).lo
          have hi : i < size 5 y.newPerm := hi
          rw [hsz] at hi
          rw [hg i (by omega)]
          split
          · exact hs.2.2.2 hx i (by omega)
          · split
            · exact hf4 hx
            · exact hs.2.2.2 hx (i - 1) (by omega)
      · exact h
    · exact h
  | update x t v =>
    unfold Chain.act
    simp only
    split
    · rename_i lv w e e'
      have hl := h.own x (by rw [e]; simp) (by rw [e]; simp)
      have hn : (s.hold x).new = none := by rw [e]; rfl
      have hs := h.still hn hl
      refine h.quiet (l := { s.leaf x with b := { (s.leaf x).b with cell := upd (s.leaf x).b.cell t (.val v) } })
        (h' := s.hold x) rfl ?_ rfl rfl rfl rfl hn hn hl (h.word x) hs.1 hs.2.1 hs.2.2.1 hs.2.2.2
      rw [upd_id]
    · exact h
  | convert x t q =>
    unfold Chain.act
    simp only
    split
    · rename_i lv e
      split
      · exact h.convStep (by rw [e]; simp) (by rw [e]; simp) (by rw [e]; rfl) rfl rfl rfl rfl
      · exact h
    · exact h
  | giveUp x =>
    unfold Chain.act
    simp only
    split
    · rename_i lv e
      have hl := h.own x (by rw [e]; simp) (by rw [e]; simp)
      have hn : (s.hold x).new = none := by rw [e]; rfl
      have hs := h.still hn hl
      refine h.quiet (l := s.leaf x) (h' := .unlock lv) ?_ rfl rfl rfl rfl rfl hn rfl hl
        (fun _ => h.word x (by rw [e]; simp)) hs.1 hs.2.1 hs.2.2.1 hs.2.2.2
      rw [upd_id]
    · exact h
  | markSplit x =>
    unfold Chain.act
    simp only
    split
    · rename_i lv e
      have hl := h.own x (by rw [e]; simp) (by rw [e]; simp)
      have hn : (s.hold x).new = none := by rw [e]; rfl
      have hs := h.still hn hl
      have hw := h.word x (by rw [e]; simp)
      exact h.quiet (h' := .marked _) rfl rfl rfl rfl rfl rfl hn rfl hl
        (fun _ => ⟨(dirty_split hw.1 hw.2).1, (dirty_split hw.1 hw.2).2.1⟩) hs.1 hs.2.1 hs.2.2.1 hs.2.2.2
    · exact h
  | freeze x sp y =>
    unfold Chain.act
    simp only
    split
    · rename_i lv e
      split
      · rename_i hc
        exact h.freeze e rfl hc.1 hc.2.1 hc.2.2.1 hc.2.2.2.1 hc.2.2.2.2 rfl rfl rfl rfl rfl rfl rfl rfl rfl rfl
          (newForSplit_bits _) rfl
      · exact h
    · exact h
  | hold x => exact h.hstep x
  | release y =>
    unfold Chain.act
    simp only
    split
    · rename_i e
      split
      · rename_i hl
        have hn : (s.hold y).new = none := by rw [e]; rfl
        have hs := h.still hn hl
        exact h.quiet (h' := .free) rfl rfl rfl rfl rfl rfl hn rfl hl
          (by intro e; exact absurd rfl e) hs.1 hs.2.1 hs.2.2.1 hs.2.2.2
      · exact h
    · exact h
  | start i x k =>
    unfold Chain.act
    simp only
    split
    · split
      · exact h.of_rd rfl rfl rfl rfl
      · exact h
    · split
      · exact h.of_rd rfl rfl rfl rfl
      · exact h
    · exact h
  | read i => exact h.of_rd rfl rfl rfl rfl

end Verif.Chain
