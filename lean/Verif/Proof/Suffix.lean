import Verif.Spec.Suffix
import Mathlib.Algebra.BigOperators.Group.Finset.Basic
import Mathlib.Order.Interval.Finset.Nat
import Mathlib.Algebra.Order.BigOperators.Group.Finset
set_option linter.unusedSimpArgs false
set_option linter.unusedVariables false
namespace Verif.Suffix
open Verif.Spec

/-- Every occupied slot below `W` lies inside the data and occupied slots do not overlap. -/
structure Inv (W : Nat) (b : Bag) : Prop where
  bound : ∀ s, s < W → (b.slots s).has → (b.slots s).offset + (b.slots s).len ≤ b.data.length
  small : ∀ s, s < W → (b.slots s).len < 2 ^ 16
  disj : ∀ s t, s < W → t < W → s ≠ t → (b.slots s).has → (b.slots t).has →
    (b.slots s).offset + (b.slots s).len ≤ (b.slots t).offset ∨
    (b.slots t).offset + (b.slots t).len ≤ (b.slots s).offset

/-- Contents of a slot. -/
def Bag.view (b : Bag) (s : Nat) : Option Bytes :=
  if (b.slots s).has then some ((b.data.drop (b.slots s).offset).take (b.slots s).len) else none

theorem Inv.get {W : Nat} {b : Bag} (h : Inv W b) {s : Nat} (hs : s < W) : b.get W s = some (b.view s) := by
  unfold Bag.get Bag.view
  rw [if_pos hs]
  by_cases hh : (b.slots s).has
  · have := h.bound s hs hh
    simp [hh, this]
  · simp [hh]

theorem has_empty : Meta.empty.has = false := by decide

theorem inv_new (W c : Nat) : Inv W ⟨fun _ => Meta.empty, [], c⟩ :=
  ⟨by intro s _ h; simp [has_empty] at h, by intro s _; simp [Meta.empty],
   by intro s t _ _ _ h; simp [has_empty] at h⟩

theorem view_new (c s : Nat) : (⟨fun _ => Meta.empty, [], c⟩ : Bag).view s = none := by
  simp [Bag.view, has_empty]

theorem slice_append {d e : Bytes} {o n : Nat} (h : o + n ≤ d.length) :
    ((d ++ e).drop o).take n = (d.drop o).take n := by
  rw [List.drop_append_of_le_length (by omega), List.take_append_of_le_length]
  simp; omega

theorem slice_end (d e : Bytes) : ((d ++ e).drop d.length).take e.length = e := by simp

theorem append_spec {W : Nat} {b : Bag} (h : Inv W b) (hd : b.data.length < 2 ^ 32 - 1) {s : Nat} (hs : s < W)
    {bs : Bytes} (hb : bs.length < 2 ^ 16) (c : Nat) :
    let b' : Bag := ⟨setSlot b.slots s ⟨b.data.length % 2 ^ 32, bs.length % 2 ^ 16⟩, b.data ++ bs, c⟩
    Inv W b' ∧ ∀ t, t < W → b'.view t = if t = s then some bs else b.view t := by
  have e1 : b.data.length % 2 ^ 32 = b.data.length := Nat.mod_eq_of_lt (by omega)
  have e2 : bs.length % 2 ^ 16 = bs.length := Nat.mod_eq_of_lt hb
  rw [e1, e2]
  refine ⟨⟨?_, ?_, ?_⟩, ?_⟩
  · intro t ht hh
    simp only [setSlot] at hh ⊢
    split
    · simp
    · rename_i hts
      rw [if_neg hts] at hh
      have := h.bound t ht hh
      simp; omega
  · intro t ht
    simp only [setSlot]; split
    · exact hb
    · exact h.small t ht
  · intro t u ht hu htu h1 h2
    simp only [setSlot] at h1 h2 ⊢
    by_cases a : t = s
    · have a' : u ≠ s := by omega
      rw [if_neg a'] at h2
      have := h.bound u hu h2
      simp [a, a']; omega
    · rw [if_neg a] at h1
      have := h.bound t ht h1
      by_cases a' : u = s
      · simp [a, a']; omega
      · rw [if_neg a'] at h2
        simp only [a, a', if_false]
        exact h.disj t u ht hu htu h1 h2
  · intro t ht
    by_cases a : t = s
    · have hne : ¬ b.data.length = 2 ^ 32 - 1 := by omega
      simp [Bag.view, setSlot, a, Meta.has]
      omega
    · simp only [Bag.view, setSlot, a, if_false]
      by_cases hh : (b.slots t).has
      · simp only [hh, if_true]
        rw [slice_append (h.bound t ht hh)]
      · simp [hh]

theorem length_overwrite {d bs : Bytes} {o : Nat} (h : o + bs.length ≤ d.length) :
    (overwrite d o bs).length = d.length := by
  simp [overwrite]; omega

theorem slice_overwrite_same {d bs : Bytes} {o : Nat} (h : o + bs.length ≤ d.length) :
    ((overwrite d o bs).drop o).take bs.length = bs := by
  unfold overwrite
  have : (d.take o).length = o := by simp; omega
  rw [List.append_assoc, List.drop_append, this]
  simp

theorem slice_overwrite_other {d bs : Bytes} {o p n : Nat} (h : o + bs.length ≤ d.length)
    (hp : p + n ≤ o ∨ o + bs.length ≤ p) :
    ((overwrite d o bs).drop p).take n = (d.drop p).take n := by
  apply List.ext_getElem?
  intro i
  simp only [overwrite, List.getElem?_take, List.getElem?_drop]
  split
  · rename_i hi
    rcases hp with hp | hp
    · rw [List.append_assoc, List.getElem?_append_left (by simp; omega), List.getElem?_take, if_pos (by omega)]
    · rw [List.getElem?_append_right (by simp; omega), List.getElem?_drop]
      congr 1
      simp; omega
  · rfl

theorem overwrite_spec {W : Nat} {b : Bag} (h : Inv W b) {s : Nat} (hs : s < W)
    {bs : Bytes} (hb : bs.length < 2 ^ 16) (hh : (b.slots s).has) (hl : bs.length ≤ (b.slots s).len) :
    let b' : Bag := ⟨setSlot b.slots s ⟨(b.slots s).offset, bs.length % 2 ^ 16⟩,
      overwrite b.data (b.slots s).offset bs, b.cap⟩
    Inv W b' ∧ ∀ t, t < W → b'.view t = if t = s then some bs else b.view t := by
  have e2 : bs.length % 2 ^ 16 = bs.length := Nat.mod_eq_of_lt hb
  rw [e2]
  have hbd := h.bound s hs hh
  have hlen : (overwrite b.data (b.slots s).offset bs).length = b.data.length := length_overwrite (by omega)
  refine ⟨⟨?_, ?_, ?_⟩, ?_⟩
  · intro t ht h1
    simp only [setSlot] at h1 ⊢
    rw [hlen]
    split
    · simp; omega
    · rename_i hts; rw [if_neg hts] at h1; exact h.bound t ht h1
  · intro t ht
    simp only [setSlot]; split
    · exact hb
    · exact h.small t ht
  · intro t u ht hu htu h1 h2
    simp only [setSlot] at h1 h2 ⊢
    by_cases a : t = s
    · have a' : u ≠ s := by omega
      rw [if_neg a'] at h2
      have := h.disj s u hs hu (by omega) hh h2
      simp [a, a']; omega
    · rw [if_neg a] at h1
      by_cases a' : u = s
      · have := h.disj t s ht hs a h1 hh
        simp [a, a']; omega
      · rw [if_neg a'] at h2
        simp only [a, a', if_false]
        exact h.disj t u ht hu htu h1 h2
  · intro t ht
    by_cases a : t = s
    · have hh' : ¬ (b.slots s).offset = 2 ^ 32 - 1 := by simpa [Meta.has] using hh
      have hh'' : (Meta.has ⟨(b.slots s).offset, bs.length⟩) = true := by simpa [Meta.has] using hh'
      simp only [Bag.view, setSlot, a, if_true, hh'']
      rw [slice_overwrite_same (by omega)]
    · simp only [Bag.view, setSlot, a, if_false]
      by_cases h1 : (b.slots t).has
      · simp only [h1, if_true]
        have := h.disj t s ht hs a h1 hh
        rw [slice_overwrite_other (by omega) (by omega)]
      · simp [h1]

theorem clear_spec {W : Nat} {b : Bag} (h : Inv W b) (s : Nat) (c : Nat) :
    let b' : Bag := ⟨setSlot b.slots s Meta.empty, b.data, c⟩
    Inv W b' ∧ ∀ t, b'.view t = if t = s then none else b.view t := by
  refine ⟨⟨?_, ?_, ?_⟩, ?_⟩
  · intro t ht h1
    simp only [setSlot] at h1 ⊢
    split
    · rename_i a; simp [a, has_empty] at h1
    · rename_i a; rw [if_neg a] at h1; exact h.bound t ht h1
  · intro t ht
    simp only [setSlot]; split
    · simp [Meta.empty]
    · exact h.small t ht
  · intro t u ht hu htu h1 h2
    simp only [setSlot] at h1 h2 ⊢
    by_cases a : t = s
    · simp [a, has_empty] at h1
    · by_cases a' : u = s
      · simp [a', has_empty] at h2
      · simp only [a, a', if_false] at *
        exact h.disj t u ht hu htu h1 h2
  · intro t
    by_cases a : t = s
    · simp [Bag.view, setSlot, a, has_empty]
    · simp [Bag.view, setSlot, a]

/-- Sum of the lengths a compaction copies. -/
def copied (W : Nat) (b : Bag) (l : List Nat) : Nat :=
  (l.map fun s => if s < W ∧ (b.slots s).has then (b.slots s).len else 0).sum

theorem compactLoop_spec {W : Nat} {old : Bag} (h : Inv W old) :
    ∀ (l : List Nat) (acc : Bag), Inv W acc → acc.data.length + copied W old l < 2 ^ 32 - 1 →
      ∃ r, compactLoop W old l acc = some r ∧ Inv W r ∧
        r.data.length = acc.data.length + copied W old l ∧
        ∀ t, t < W → r.view t = if t ∈ l ∧ (old.slots t).has then old.view t else acc.view t := by
  intro l
  induction l with
  | nil => intro acc ha _; exact ⟨acc, rfl, ha, by simp [copied], by simp⟩
  | cons s l ih =>
    intro acc ha hlen
    unfold compactLoop
    by_cases hs : s < W
    · by_cases hh : (old.slots s).has
      · have hbd := h.bound s hs hh
        have hsm := h.small s hs
        simp only [hs, hh, if_true, hbd]
        have hc : copied W old (s :: l) = (old.slots s).len + copied W old l := by
          simp [copied, hs, hh]
        rw [hc] at hlen ⊢
        have hl : ((old.data.drop (old.slots s).offset).take (old.slots s).len).length = (old.slots s).len := by
          simp; omega
        have key := append_spec ha (by omega) hs (bs := (old.data.drop (old.slots s).offset).take (old.slots s).len)
          (by omega) acc.cap
        rw [hl, Nat.mod_eq_of_lt hsm] at key
        obtain ⟨k1, k2⟩ := key
        obtain ⟨r, e, i, g, v⟩ := ih _ k1 (by simp only [List.length_append, hl]; omega)
        refine ⟨r, e, i, ?_, ?_⟩
        · rw [g]; simp only [List.length_append, hl]; omega
        · intro t ht
          rw [v t ht, k2 t ht]
          by_cases a : t = s
          · subst a
            by_cases b : t ∈ l <;> simp [hh, b, Bag.view]
          · simp [a]
      · have hc : copied W old (s :: l) = copied W old l := by simp [copied, hh]
        rw [hc] at hlen ⊢
        simp only [hs, hh, if_true]
        obtain ⟨r, e, i, g, v⟩ := ih acc ha hlen
        refine ⟨r, by simpa using e, i, g, ?_⟩
        intro t ht
        rw [v t ht]
        by_cases a : t = s
        · subst a; simp [hh]
        · simp [a]
    · have hc : copied W old (s :: l) = copied W old l := by simp [copied, hs]
      rw [hc] at hlen ⊢
      simp only [hs, if_false]
      obtain ⟨r, e, i, g, v⟩ := ih acc ha hlen
      refine ⟨r, e, i, g, ?_⟩
      intro t ht
      rw [v t ht]
      have : t ≠ s := by omega
      simp [this]

end Verif.Suffix

namespace Verif.Suffix
open Verif.Spec Finset

theorem copied_le {W : Nat} {b : Bag} (h : Inv W b) {l : List Nat} (hl : l.Nodup) :
    copied W b l ≤ b.data.length := by
  have e : copied W b l = ∑ s ∈ l.toFinset with (s < W ∧ (b.slots s).has = true), (b.slots s).len := by
    rw [Finset.sum_filter, List.sum_toFinset _ hl]
    rfl
  rw [e]
  have e2 : ∀ s ∈ l.toFinset.filter (fun s => s < W ∧ (b.slots s).has = true),
      (b.slots s).len = (Finset.Ico (b.slots s).offset ((b.slots s).offset + (b.slots s).len)).card := by
    intro s _; simp
  rw [Finset.sum_congr rfl e2, ← Finset.card_biUnion]
  · calc _ ≤ (Finset.range b.data.length).card := by
          apply Finset.card_le_card
          intro x hx
          simp only [Finset.mem_biUnion, Finset.mem_filter, Finset.mem_Ico] at hx
          obtain ⟨s, ⟨_, hs, hh⟩, h1, h2⟩ := hx
          have := h.bound s hs hh
          simp; omega
      _ = _ := by simp
  · intro s hs t ht hst
    have hs := (Finset.mem_filter.1 hs)
    have ht := (Finset.mem_filter.1 ht)
    rw [Function.onFun, Finset.disjoint_left]
    intro x hx hy
    simp only [Finset.mem_Ico] at hx hy
    have := h.disj s t hs.2.1 ht.2.1 hst hs.2.2 ht.2.2
    omega

/-- One call on a bag whose data, with the call's cost, stays below 4 GiB. -/
theorem step_spec {W : Nat} {b : Bag} (h : Inv W b) (o : Op)
    (hlegal : Spec.Suffix.Legal W o) (hnd : ∀ a c, o = .compact a c → a.Nodup)
    (hc : b.data.length + Spec.Suffix.cost o < 2 ^ 32 - 1) :
    ∃ b' r, step W b o = some (b', r) ∧ Inv W b' ∧ b'.data.length ≤ b.data.length + Spec.Suffix.cost o ∧
      ∀ t, t < W → b'.view t = Spec.Suffix.step b.view o r t := by
  cases o with
  | tryAssign s bs =>
    obtain ⟨hs, hb⟩ := hlegal
    simp only [Spec.Suffix.cost] at hc ⊢
    by_cases c1 : (b.slots s).has = true ∧ bs.length ≤ (b.slots s).len
    · have hbd := h.bound s hs c1.1
      have hle : (b.slots s).offset + bs.length ≤ b.data.length := by omega
      obtain ⟨k1, k2⟩ := overwrite_spec h hs hb c1.1 c1.2
      refine ⟨_, true, ?_, k1, ?_, ?_⟩
      · simp only [step, Bag.tryAssign]
        rw [if_pos ⟨hs, hb⟩, if_pos c1, if_pos hle]
      · simp only [length_overwrite hle]; omega
      · intro t ht; rw [k2 t ht]; rfl
    · by_cases c2 : b.data.length + bs.length ≤ b.cap
      · obtain ⟨k1, k2⟩ := append_spec h (by omega) hs hb b.cap
        refine ⟨_, true, ?_, k1, ?_, ?_⟩
        · simp only [step, Bag.tryAssign]
          rw [if_pos ⟨hs, hb⟩, if_neg c1, if_pos c2]
        · simp
        · intro t ht; rw [k2 t ht]; rfl
      · refine ⟨b, false, ?_, h, by omega, fun t _ => rfl⟩
        simp only [step, Bag.tryAssign]
        rw [if_pos ⟨hs, hb⟩, if_neg c1, if_neg c2]
  | assign s bs g =>
    obtain ⟨hs, hb⟩ := hlegal
    simp only [Spec.Suffix.cost] at hc ⊢
    obtain ⟨k1, k2⟩ := append_spec h (by omega) hs hb (max b.cap (max g (b.data.length + bs.length)))
    refine ⟨_, true, ?_, k1, ?_, ?_⟩
    · simp only [step, Bag.assign]
      rw [if_pos ⟨hs, hb⟩]; rfl
    · simp
    · intro t ht; rw [k2 t ht]; rfl
  | clear s =>
    obtain ⟨k1, k2⟩ := clear_spec h s b.cap
    refine ⟨_, true, ?_, k1, by simp, ?_⟩
    · simp only [step, Bag.clear]
      rw [if_pos (show s < W from hlegal)]; rfl
    · intro t ht; rw [k2 t]; rfl
  | compact a c =>
    have hle := copied_le h (hnd a c rfl)
    simp only [Spec.Suffix.cost] at hc ⊢
    obtain ⟨r, e, i, g, v⟩ := compactLoop_spec h a (Bag.withCapacity c) (inv_new W c) (by simp [Bag.withCapacity]; omega)
    refine ⟨{ r with cap := max c r.data.length }, true, ?_, ⟨i.bound, i.small, i.disj⟩, ?_, ?_⟩
    · simp only [step, Bag.compact, e, Option.map_some]
    · simp only [g]; simp [Bag.withCapacity]; omega
    · intro t ht
      have : ({ r with cap := max c r.data.length } : Bag).view t = r.view t := rfl
      rw [this, v t ht]
      have hn : (Bag.withCapacity c).view t = none := view_new c t
      simp only [Spec.Suffix.step, hn]
      by_cases m : t ∈ a
      · by_cases hh : (b.slots t).has <;> simp [m, hh, Bag.view]
      · simp [m]
  | clone c =>
    exact ⟨_, true, rfl, ⟨h.bound, h.small, h.disj⟩, by simp [Bag.clone], fun t _ => rfl⟩

theorem run_spec {W : Nat} : ∀ (os : List Op) (b : Bag) (m : Spec.Suffix.Map), Inv W b →
    (∀ t, t < W → b.view t = m t) → (∀ o ∈ os, Spec.Suffix.Legal W o) →
    (∀ a c, Op.compact a c ∈ os → a.Nodup) →
    b.data.length + Spec.Suffix.total os < 2 ^ 32 - 1 →
    ∃ b' rs, run W b os = some (b', rs) ∧ Inv W b' ∧
      b'.data.length ≤ b.data.length + Spec.Suffix.total os ∧
      ∀ t, t < W → b'.view t = Spec.Suffix.run m os rs t := by
  intro os
  induction os with
  | nil => intro b m h hv _ _ _; exact ⟨b, [], rfl, h, by simp, hv⟩
  | cons o os ih =>
    intro b m h hv hl hn hc
    have ht : Spec.Suffix.total (o :: os) = Spec.Suffix.cost o + Spec.Suffix.total os := by
      simp [Spec.Suffix.total]
    rw [ht] at hc ⊢
    obtain ⟨b1, r, e, i, g, v⟩ := step_spec h o (hl o (by simp)) (fun a c he => hn a c (by simp [he])) (by omega)
    have hv1 : ∀ t, t < W → b1.view t = Spec.Suffix.step m o r t := by
      intro t hw
      rw [v t hw]
      cases o <;> cases r <;> simp [Spec.Suffix.step, hv t hw]
    obtain ⟨b2, rs, e2, i2, g2, v2⟩ := ih b1 _ i hv1 (fun o ho => hl o (by simp [ho]))
      (fun a c ha => hn a c (by simp [ha])) (by omega)
    refine ⟨b2, r :: rs, ?_, i2, by omega, v2⟩
    simp [run, e, e2]

/-! ## Leaf level -/

/-- The leaf's bag (if any) satisfies the invariant. -/
def LInv (l : LeafSuf) (m : Spec.Suffix.LMap) (n : Nat) : Prop :=
  (match l.bag with
   | none => ∀ t, t < 24 → m.suf t = none
   | some b => Inv 24 b ∧ b.data.length ≤ n ∧ ∀ t, t < 24 → b.view t = m.suf t) ∧
  ∀ t, l.klx t = m.klx t

theorem LInv.read {l : LeafSuf} {m : Spec.Suffix.LMap} {n : Nat} (h : LInv l m n) {s : Nat} (hs : s < 24) :
    l.ksuf s = some (m.read s) := by
  obtain ⟨h1, h2⟩ := h
  unfold LeafSuf.ksuf Spec.Suffix.LMap.read
  rw [h2 s]
  simp only [ksufKeylenx]
  by_cases hk : m.klx s = 64
  · simp only [hk, if_true]
    cases hb : l.bag with
    | none => rw [hb] at h1; simp [h1 s hs]
    | some b =>
      rw [hb] at h1
      obtain ⟨i, _, v⟩ := h1
      simp only
      rw [show W24 = 24 from rfl, i.get hs, v s hs]
  · simp [hk]

theorem LInv.equals {l : LeafSuf} {m : Spec.Suffix.LMap} {n : Nat} (h : LInv l m n) {s : Nat} (hs : s < 24)
    (bs : Bytes) : l.ksufEquals s bs = some (decide (m.read s = some bs)) := by
  obtain ⟨h1, h2⟩ := h
  unfold LeafSuf.ksufEquals Spec.Suffix.LMap.read
  rw [h2 s]
  simp only [ksufKeylenx]
  by_cases hk : m.klx s = 64
  · simp only [hk, if_true]
    cases hb : l.bag with
    | none => rw [hb] at h1; simp [h1 s hs]
    | some b =>
      rw [hb] at h1
      obtain ⟨i, _, v⟩ := h1
      simp only [Bag.suffixEquals]
      rw [show W24 = 24 from rfl, i.get hs, v s hs]
      cases m.suf s with
      | none => simp
      | some x => by_cases hx : x = bs <;> simp [hx]
  · simp [hk]

theorem lstep_spec {l : LeafSuf} {m : Spec.Suffix.LMap} {n : Nat} (h : LInv l m n) (o : LOp)
    (hl : Spec.Suffix.LLegal o) (hnd : ∀ a e c d, o = .compact a e c d → a.Nodup)
    (hc : n + Spec.Suffix.lcost o < 2 ^ 32 - 1) :
    ∃ l', lstep l o = some l' ∧ LInv l' (Spec.Suffix.lstep m o) (n + Spec.Suffix.lcost o) := by
  obtain ⟨h1, h2⟩ := h
  cases o with
  | assign s bs c g =>
    simp only [Spec.Suffix.lcost] at hc ⊢
    cases hb : l.bag with
    | none =>
      rw [hb] at h1
      obtain ⟨b', r, e, i, gl, v⟩ := step_spec (inv_new 24 initialCapacity) (.assign s bs g) hl (by simp)
        (by simp only [Spec.Suffix.cost, List.length_nil]; omega)
      simp only [step, Option.map_eq_some_iff] at e
      obtain ⟨b'', e, e'⟩ := e
      obtain ⟨rfl, rfl⟩ := Prod.mk.inj e'
      refine ⟨{ l with bag := some b'' }.setKlx s ksufKeylenx, ?_, ?_, ?_⟩
      · simp only [lstep, LeafSuf.assignKsuf, hb]
        have e0 : Bag.assign W24 Bag.new s bs g = some b'' := e
        rw [e0]; rfl
      · simp only [LeafSuf.setKlx]
        refine ⟨i, by simpa [Spec.Suffix.cost] using Nat.le_trans gl (by simp [Spec.Suffix.cost]), ?_⟩
        intro t ht
        rw [v t ht]
        simp only [Spec.Suffix.step, Spec.Suffix.lstep, view_new, h1 t ht]
      · intro t; simp [LeafSuf.setKlx, Spec.Suffix.lstep, ksufKeylenx, h2 t]
    | some b =>
      rw [hb] at h1
      obtain ⟨ib, hbn, vb⟩ := h1
      obtain ⟨b', r, e, i, gl, v⟩ := step_spec ib (.tryAssign s bs) hl (by simp)
        (by simp only [Spec.Suffix.cost]; omega)
      simp only [step] at e
      cases r with
      | true =>
        refine ⟨{ l with bag := some b' }.setKlx s ksufKeylenx, ?_, ?_, ?_⟩
        · simp only [lstep, LeafSuf.assignKsuf, hb, show W24 = 24 from rfl, e]
        · simp only [LeafSuf.setKlx]
          refine ⟨i, by simp only [Spec.Suffix.cost] at gl; omega, ?_⟩
          intro t ht
          rw [v t ht]
          simp only [Spec.Suffix.step, Spec.Suffix.lstep, vb t ht]
        · intro t; simp [LeafSuf.setKlx, Spec.Suffix.lstep, ksufKeylenx, h2 t]
      | false =>
        have ic : Inv 24 (b.clone c) := ⟨ib.bound, ib.small, ib.disj⟩
        obtain ⟨b2, r2, e2, i2, gl2, v2⟩ := step_spec ic (.assign s bs g) hl (by simp)
          (by simp only [Spec.Suffix.cost, Bag.clone]; omega)
        simp only [step, Option.map_eq_some_iff] at e2
        obtain ⟨b'', e2, e'⟩ := e2
        obtain ⟨rfl, rfl⟩ := Prod.mk.inj e'
        refine ⟨{ l with bag := some b'' }.setKlx s ksufKeylenx, ?_, ?_, ?_⟩
        · simp only [lstep, LeafSuf.assignKsuf, hb, show W24 = 24 from rfl, e, e2, Option.map_some]
        · simp only [LeafSuf.setKlx]
          refine ⟨i2, by simp only [Spec.Suffix.cost, Bag.clone] at gl2; omega, ?_⟩
          intro t ht
          rw [v2 t ht]
          have : (b.clone c).view = b.view := rfl
          simp only [Spec.Suffix.step, Spec.Suffix.lstep, this, vb t ht]
        · intro t; simp [LeafSuf.setKlx, Spec.Suffix.lstep, ksufKeylenx, h2 t]
  | clear s c =>
    simp only [Spec.Suffix.lcost] at hc ⊢
    cases hb : l.bag with
    | none =>
      rw [hb] at h1
      refine ⟨l.setKlx s 0, by simp only [lstep, LeafSuf.clearKsuf, hb], ?_, ?_⟩
      · simp only [LeafSuf.setKlx, hb]
        intro t ht
        simp [Spec.Suffix.lstep, h1 t ht]
      · intro t; simp [LeafSuf.setKlx, Spec.Suffix.lstep, h2 t]
    | some b =>
      rw [hb] at h1
      obtain ⟨ib, hbn, vb⟩ := h1
      have ic : Inv 24 (b.clone c) := ⟨ib.bound, ib.small, ib.disj⟩
      obtain ⟨k1, k2⟩ := clear_spec ic s (b.clone c).cap
      refine ⟨{ l with bag := some ⟨setSlot (b.clone c).slots s Meta.empty, (b.clone c).data, (b.clone c).cap⟩ }.setKlx s 0, ?_, ?_, ?_⟩
      · simp only [lstep, LeafSuf.clearKsuf, hb, Bag.clear]
        rw [if_pos (show s < W24 from hl)]; rfl
      · simp only [LeafSuf.setKlx]
        refine ⟨k1, hbn, ?_⟩
        intro t ht
        rw [k2 t]
        have : (b.clone c).view = b.view := rfl
        simp only [Spec.Suffix.lstep, this, vb t ht]
      · intro t; simp [LeafSuf.setKlx, Spec.Suffix.lstep, h2 t]
  | compact a ex c d =>
    simp only [Spec.Suffix.lcost] at hc ⊢
    cases hb : l.bag with
    | none =>
      rw [hb] at h1
      refine ⟨l, by simp only [lstep, LeafSuf.compactKsuf, hb], ?_, ?_⟩
      · simp only [hb]
        intro t ht
        simp [Spec.Suffix.lstep, h1 t ht]
      · intro t; simp [Spec.Suffix.lstep, h2 t]
    | some b =>
      rw [hb] at h1
      obtain ⟨ib, hbn, vb⟩ := h1
      have ic : Inv 24 (b.clone c) := ⟨ib.bound, ib.small, ib.disj⟩
      have nd := (hnd a ex c d rfl).filter (fun s => some s != ex)
      obtain ⟨b2, r2, e2, i2, gl2, v2⟩ := step_spec ic (.compact (a.filter fun s => some s != ex) d) trivial
        (by intro a' c' e; cases e; exact nd)
        (by simp only [Spec.Suffix.cost, Bag.clone]; omega)
      simp only [step, Option.map_eq_some_iff] at e2
      obtain ⟨⟨b'', k⟩, e2, e'⟩ := e2
      obtain ⟨rfl, rfl⟩ := Prod.mk.inj e'
      refine ⟨{ l with bag := some b'' }, ?_, ?_, ?_⟩
      · simp only [lstep, LeafSuf.compactKsuf, hb, Bag.compactWith, show W24 = 24 from rfl, e2, Option.map_some]
      · simp only
        refine ⟨i2, by simp only [Spec.Suffix.cost, Bag.clone] at gl2; omega, ?_⟩
        intro t ht
        rw [v2 t ht]
        have : (b.clone c).view = b.view := rfl
        simp [Spec.Suffix.step, Spec.Suffix.lstep, this, vb t ht]
      · intro t; simp [Spec.Suffix.lstep, h2 t]
  | setKlx s v =>
    refine ⟨_, rfl, ?_, ?_⟩
    · simpa [LeafSuf.setKlx, Spec.Suffix.lstep, Spec.Suffix.lcost] using h1
    · intro t; simp [LeafSuf.setKlx, Spec.Suffix.lstep, h2 t]

theorem lrun_spec : ∀ (os : List LOp) (l : LeafSuf) (m : Spec.Suffix.LMap) (n : Nat), LInv l m n →
    (∀ o ∈ os, Spec.Suffix.LLegal o) → (∀ a e c d, LOp.compact a e c d ∈ os → a.Nodup) →
    n + Spec.Suffix.ltotal os < 2 ^ 32 - 1 →
    ∃ l', lrun l os = some l' ∧ LInv l' (Spec.Suffix.lrun m os) (n + Spec.Suffix.ltotal os) := by
  intro os
  induction os with
  | nil => intro l m n h _ _ _; exact ⟨l, rfl, h⟩
  | cons o os ih =>
    intro l m n h hl hn hc
    have ht : Spec.Suffix.ltotal (o :: os) = Spec.Suffix.lcost o + Spec.Suffix.ltotal os := by
      simp [Spec.Suffix.ltotal]
    rw [ht] at hc ⊢
    obtain ⟨l1, e, i⟩ := lstep_spec h o (hl o (by simp)) (fun a e c d he => hn a e c d (by simp [he])) (by omega)
    obtain ⟨l2, e2, i2⟩ := ih l1 _ _ i (fun o ho => hl o (by simp [ho]))
      (fun a e c d ha => hn a e c d (by simp [ha])) (by omega)
    refine ⟨l2, by simp [lrun, e, e2], ?_⟩
    rw [← Nat.add_assoc]; exact i2

end Verif.Suffix
