import Verif.Spec.ValueRace
set_option linter.unusedSimpArgs false
set_option linter.unusedVariables false
/-!
# Values shared by threads: the invariant

Every reference that is counted has an owner: a slot, an insert, the collector or an `Arc` outside the tree.  A pointer that a lookup has loaded under
its guard is owned by a slot, by an insert that has taken it out of its slot, or by the collector, which waits for that guard.
-/
namespace Verif.ValueRace
open Verif.Internode (upd)
variable {V : Type}

/-- Who can own a reference. -/
inductive Owner where
  | cell (x t : Nat)
  | new (i : Nat)
  | old (i : Nat)
  | bin (n : Nat)
  | handle (h : Nat)
  deriving DecidableEq

/-- What they own. -/
def owns (s : St V) : Owner → Option Nat
  | .cell x t => s.cell x t
  | .new i => s.new i
  | .old i => s.old i
  | .bin n => (s.bin n).map (·.1)
  | .handle h => s.handle h

/-- Change one owner. -/
def set (f : Owner → Option Nat) (k : Owner) (v : Option Nat) : Owner → Option Nat := fun j => if j = k then v else f j

/-- One if it is so. -/
def one (o : Option Nat) (p : Nat) : Nat := if o = some p then 1 else 0

/-- `c` counts the owners. -/
def Tally (f : Owner → Option Nat) (c : Nat → Nat) : Prop :=
  ∃ l : List Owner, l.Nodup ∧ (∀ k, f k ≠ none → k ∈ l) ∧ ∀ p, c p = l.countP fun k => f k == some p

theorem count_set {f : Owner → Option Nat} {k : Owner} {v : Option Nat} {p : Nat} : ∀ {l : List Owner}, l.Nodup → k ∈ l →
    (l.countP fun j => set f k v j == some p) + one (f k) p = (l.countP fun j => f j == some p) + one v p
  | [], _, h => by cases h
  | j :: l, hn, h => by
    obtain ⟨h1, h2⟩ := List.nodup_cons.1 hn
    rw [List.countP_cons, List.countP_cons]
    by_cases e : j = k
    · subst e
      have : (l.countP fun j' => set f j v j' == some p) = l.countP fun j' => f j' == some p := by
        refine List.countP_congr fun j' hj' => ?_
        have : j' ≠ j := fun e => h1 (e ▸ hj')
        simp only [set, if_neg this]
      rw [this]
      simp only [set, if_pos, one, beq_iff_eq]
      split <;> split <;> omega
    · have hk : k ∈ l := by
        rcases List.mem_cons.1 h with g | g
        · exact absurd g.symm e
        · exact g
      have := count_set (f := f) (v := v) (p := p) h2 hk
      simp only [set, if_neg e] at this ⊢
      omega

theorem Tally.set {f : Owner → Option Nat} {c c' : Nat → Nat} (T : Tally f c) (k : Owner) (v : Option Nat) (h : ∀ p, c' p + one (f k) p = c p + one v p) :
    Tally (set f k v) c' := by
  obtain ⟨l, h1, h2, h3⟩ := T
  have main : ∀ l : List Owner, l.Nodup → (∀ k, f k ≠ none → k ∈ l) → (∀ p, c p = l.countP fun k => f k == some p) → k ∈ l → Tally (ValueRace.set f k v) c' := by
    intro l h1 h2 h3 hk
    refine ⟨l, h1, fun j hj => ?_, fun p => ?_⟩
    · by_cases e : j = k
      · subst e; exact hk
      · exact h2 j (by simpa only [ValueRace.set, if_neg e] using hj)
    · have := count_set (f := f) (k := k) (v := v) (p := p) h1 hk
      have := h p
      have := h3 p
      omega
  by_cases hk : k ∈ l
  · exact main l h1 h2 h3 hk
  · have hf : f k = none := Classical.byContradiction fun g => hk (h2 k g)
    refine main (k :: l) (List.nodup_cons.2 ⟨hk, h1⟩) (fun j hj => List.mem_cons_of_mem _ (h2 j hj)) (fun p => ?_) List.mem_cons_self
    rw [List.countP_cons, h3 p, hf]
    simp

theorem Tally.pos {f : Owner → Option Nat} {c : Nat → Nat} (T : Tally f c) {k : Owner} {p : Nat} (h : f k = some p) : 0 < c p := by
  obtain ⟨l, h1, h2, h3⟩ := T
  rw [h3 p, List.countP_pos_iff]
  exact ⟨k, h2 k (by rw [h]; nofun), by simp [h]⟩

theorem Tally.zero {f : Owner → Option Nat} {c : Nat → Nat} (T : Tally f c) {p : Nat} (h : ∀ k, f k ≠ some p) : c p = 0 := by
  obtain ⟨l, h1, h2, h3⟩ := T
  rw [h3 p, List.countP_eq_zero]
  exact fun k _ g => h k (by simpa using g)

/-- The owner is not an `Arc` that can be dropped at any time, and it is not the collector, unless that waits for `i`. -/
def Keeps (s : St V) (i p : Nat) : Owner → Prop
  | .cell x t => s.cell x t = some p
  | .old j => s.old j = some p
  | .bin n => ∃ w, s.bin n = some (p, w) ∧ i ∈ w
  | _ => False

/-- The invariant. -/
structure Inv (s : St V) : Prop where
  tally : Tally (owns s) s.strong
  safe : ∀ i p, p ∈ s.refs i → (i ∈ s.pin ∧ s.home i = true) ∧ ∃ k, Keeps s i p k
  look : ∀ i x t p, s.look i = some (x, t, p) → s.lock x = some i ∧ s.cell x t = some p
  live : ∀ p, s.used p = true → (0 < s.strong p ∧ s.data p ≠ none ∧ s.drops p = 0) ∨ (s.strong p = 0 ∧ s.data p = none ∧ s.drops p = 1)
  rest : ∀ p, s.used p = false → s.strong p = 0 ∧ s.data p = none ∧ s.drops p = 0
  good : s.bad = false

theorem Keeps.owns {s : St V} {i p : Nat} {k : Owner} (h : Keeps s i p k) : owns s k = some p := by
  cases k with
  | cell x t => exact h
  | old j => exact h
  | bin n => obtain ⟨w, h, _⟩ := h; simp [ValueRace.owns, h]
  | new j => exact h.elim
  | handle j => exact h.elim

theorem Inv.start {s : St V} (h : Start s) : Inv s := by
  refine ⟨⟨[], List.nodup_nil, fun k hk => ?_, fun p => ?_⟩, fun i p hp => ?_, fun i x t p hl => ?_, fun p hp => ?_, fun p _ => ⟨h.strong p, h.data p, h.drops p⟩, h.bad⟩
  · cases k <;> simp [owns, h.cell, h.new, h.old, h.bin, h.handle] at hk
  · rw [h.strong]; rfl
  · rw [h.refs] at hp; cases hp
  · rw [h.look] at hl; cases hl
  · rw [h.used] at hp; cases hp

/-- Somebody who owns `p` adds a reference. -/
theorem Inv.alive {s : St V} (I : Inv s) {k : Owner} {p : Nat} (h : owns s k = some p) : 0 < s.strong p ∧ s.data p ≠ none ∧ s.drops p = 0 ∧ s.used p = true := by
  have := I.tally.pos h
  cases e : s.used p with
  | true =>
    rcases I.live p e with g | g
    · exact ⟨g.1, g.2.1, g.2.2, rfl⟩
    · omega
  | false => have := I.rest p e; omega


theorem put2_apply (f : Nat → Nat → Option Nat) (x t : Nat) (v : Option Nat) (x' t' : Nat) :
    put2 f x t v x' t' = if x' = x ∧ t' = t then v else f x' t' := by
  unfold put2 upd
  by_cases h : x' = x
  · subst h; simp
  · simp [h]

theorem Tally.same {f g : Owner → Option Nat} {c : Nat → Nat} (T : Tally f c) (h : g = f) : Tally g c := h ▸ T

/-- A new owner of `p`. -/
theorem Tally.more {f : Owner → Option Nat} {c : Nat → Nat} (T : Tally f c) {k : Owner} {p : Nat} (h : f k = none) :
    Tally (ValueRace.set f k (some p)) (upd c p (c p + 1)) := by
  refine T.set k (some p) fun q => ?_
  rw [h]
  simp only [one, upd, Option.some.injEq]
  by_cases e : q = p
  · subst e; simp
  · have : ¬ p = q := fun g => e g.symm
    simp [e, this]

/-- An owner of `p` gives it up. -/
theorem Tally.less {f : Owner → Option Nat} {c : Nat → Nat} (T : Tally f c) {k : Owner} {p : Nat} (h : f k = some p) :
    Tally (ValueRace.set f k none) (upd c p (c p - 1)) := by
  have := T.pos h
  refine T.set k none fun q => ?_
  rw [h]
  simp only [one, upd, Option.some.injEq]
  by_cases e : q = p
  · subst e; simp; omega
  · have : ¬ p = q := fun g => e g.symm
    simp [e, this]

/-- An owner hands `p` over to another one. -/
theorem Tally.pass {f : Owner → Option Nat} {c : Nat → Nat} (T : Tally f c) {k k' : Owner} {p : Nat} (h : f k = some p) (h' : f k' = none) :
    Tally (ValueRace.set (ValueRace.set f k none) k' (some p)) c := by
  have hp := T.pos h
  have T1 := T.less h
  have hk : ValueRace.set f k none k' = none := by 
    simp only [ValueRace.set]
    split
    · rfl
    · exact h'
  have T2 := T1.more (k := k') (p := p) hk
  have e : upd (upd c p (c p - 1)) p (upd c p (c p - 1) p + 1) = c := by
    funext q
    simp only [upd]
    by_cases e : q = p
    · subst e; simp; omega
    · simp [e]
  rw [e] at T2
  exact T2

/-- The counts after `inc`. -/
theorem Inv.inc {s : St V} (I : Inv s) {k : Owner} {p : Nat} (h : owns s k = some p) :
    (∀ q, s.used q = true → (0 < (s.inc p).strong q ∧ s.data q ≠ none ∧ s.drops q = 0) ∨ ((s.inc p).strong q = 0 ∧ s.data q = none ∧ s.drops q = 1)) ∧
      (∀ q, s.used q = false → (s.inc p).strong q = 0 ∧ s.data q = none ∧ s.drops q = 0) ∧ (s.inc p).bad = false := by
  obtain ⟨h1, h2, h3, h4⟩ := I.alive h
  refine ⟨fun q hq => ?_, fun q hq => ?_, ?_⟩
  · by_cases e : q = p
    · subst e; exact .inl ⟨by simp [St.inc, upd], h2, h3⟩
    · simpa [St.inc, upd, e] using I.live q hq
  · have e : q ≠ p := fun e => by rw [e, h4] at hq; cases hq
    simpa [St.inc, upd, e] using I.rest q hq
  · simp [St.inc, I.good]; omega

/-- The counts after `dec`. -/
theorem Inv.dec {s : St V} (I : Inv s) {k : Owner} {p : Nat} (h : owns s k = some p) :
    (∀ q, s.used q = true → (0 < (s.dec p).strong q ∧ (s.dec p).data q ≠ none ∧ (s.dec p).drops q = 0) ∨
      ((s.dec p).strong q = 0 ∧ (s.dec p).data q = none ∧ (s.dec p).drops q = 1)) ∧
      (∀ q, s.used q = false → (s.dec p).strong q = 0 ∧ (s.dec p).data q = none ∧ (s.dec p).drops q = 0) ∧ (s.dec p).bad = false := by
  obtain ⟨h1, h2, h3, h4⟩ := I.alive h
  refine ⟨fun q hq => ?_, fun q hq => ?_, ?_⟩
  · by_cases e : q = p
    · subst e
      by_cases g : s.strong q ≤ 1
      · right; simp [St.dec, upd, g, h3]
      · left; simp [St.dec, upd, g, h3, h2]; omega
    · have := I.live q hq
      by_cases g : s.strong p ≤ 1 <;> simpa [St.dec, upd, e, g] using this
  · have e : q ≠ p := fun e => by rw [e, h4] at hq; cases hq
    have := I.rest q hq
    by_cases g : s.strong p ≤ 1 <;> simpa [St.dec, upd, e, g] using this
  · simp [St.dec, I.good]; omega

theorem Inv.step {s : St V} (I : Inv s) (a : Act V) (P : Proper s a) : Inv (act s a) := by
  cases a with
  | make h p v =>
    simp only [act]
    split
    · rename_i g
      obtain ⟨g1, g2⟩ := g
      have r := I.rest p g1
      refine ⟨?_, I.safe, I.look, fun q hq => ?_, fun q hq => ?_, I.good⟩
      · have T := I.tally.more (k := .handle h) (p := p) g2
        rw [r.1] at T
        refine T.same (funext fun k => ?_)
        cases k <;> simp [owns, set, upd]
      · by_cases e : q = p
        · subst e; left; simp [upd, r.2.2]
        · simp only [upd, if_neg e] at hq ⊢; exact I.live q hq
      · have e : q ≠ p := fun e => by subst e; simp [upd] at hq
        simp only [upd, if_neg e] at hq ⊢; exact I.rest q hq
    · exact I
  | drop h =>
    simp only [act]
    split
    · rename_i p g
      have ho : owns s (.handle h) = some p := g
      obtain ⟨h1, h2, h3⟩ := I.dec ho
      refine ⟨?_, I.safe, I.look, h1, h2, h3⟩
      refine (I.tally.less ho).same (funext fun k => ?_)
      cases k <;> simp [owns, set, upd, St.dec]
    · exact I
  | pin i =>
    refine ⟨I.tally, fun j p hp => ?_, I.look, I.live, I.rest, I.good⟩
    obtain ⟨h1, h2⟩ := I.safe j p hp
    exact ⟨⟨List.mem_cons_of_mem _ h1.1, h1.2⟩, h2⟩
  | unpin i =>
    simp only [act]
    split
    · refine ⟨?_, fun j p hp => ?_, I.look, I.live, I.rest, I.good⟩
      · refine I.tally.same (funext fun k => ?_)
        cases k <;> simp [owns]
        rename_i n
        cases s.bin n <;> rfl
      · have hj : j ≠ i := fun e => by subst e; simp [upd] at hp
        simp only [upd, if_neg hj] at hp
        obtain ⟨h1, k, h2⟩ := I.safe j p hp
        refine ⟨⟨List.mem_filter.2 ⟨h1.1, by simpa using hj⟩, h1.2⟩, k, ?_⟩
        cases k with
        | cell x t => exact h2
        | old j => exact h2
        | new j => exact h2
        | handle j => exact h2
        | bin n =>
          obtain ⟨w, h3, h4⟩ := h2
          exact ⟨w.filter (· != i), by simp [h3], List.mem_filter.2 ⟨h4, by simpa using hj⟩⟩
    · exact I
  | lock i x =>
    simp only [act]
    split
    · rename_i g
      refine ⟨I.tally, I.safe, fun j y t p hl => ?_, I.live, I.rest, I.good⟩
      obtain ⟨h1, h2⟩ := I.look j y t p hl
      have e : y ≠ x := fun e => by subst e; rw [g] at h1; cases h1
      exact ⟨by simpa [upd, e] using h1, h2⟩
    · exact I
  | unlock i x =>
    simp only [act]
    split
    · rename_i g
      refine ⟨I.tally, I.safe, fun j y t p hl => ?_, I.live, I.rest, I.good⟩
      have hl : s.look j = some (y, t, p) := hl
      obtain ⟨h1, h2⟩ := I.look j y t p hl
      have e : y ≠ x := fun e => by
        subst e
        rw [g.1] at h1
        injection h1 with h1
        subst h1
        have := g.2
        rw [hl] at this
        simp at this
      exact ⟨by simpa [upd, e] using h1, h2⟩
    · exact I
  | load i x t =>
    simp only [act]
    split
    · rename_i p g
      split
      · rename_i hp
        refine ⟨I.tally, fun j q hq => ?_, I.look, I.live, I.rest, I.good⟩
        by_cases e : j = i
        · subst e
          simp only [upd, if_true] at hq
          rcases List.mem_cons.1 hq with hq | hq
          · subst hq; exact ⟨⟨hp, P⟩, .cell x t, g⟩
          · exact I.safe j q hq
        · simp only [upd, if_neg e] at hq; exact I.safe j q hq
      · exact I
    · exact I
  | clone i p h =>
    simp only [act]
    split
    · rename_i g
      obtain ⟨_, k, hk⟩ := I.safe i p g.1
      obtain ⟨h1, h2, h3⟩ := I.inc hk.owns
      refine ⟨?_, I.safe, I.look, h1, h2, h3⟩
      refine (I.tally.more (k := .handle h) g.2).same (funext fun k => ?_)
      cases k <;> simp [owns, set, upd, St.inc]
    · exact I
  | look i x t =>
    simp only [act]
    split
    · rename_i p g
      split
      · rename_i hl
        refine ⟨I.tally, I.safe, fun j y u q h => ?_, I.live, I.rest, I.good⟩
        by_cases e : j = i
        · subst e
          simp only [upd, if_true, Option.some.injEq, Prod.mk.injEq] at h
          obtain ⟨rfl, rfl, rfl⟩ := h
          exact ⟨hl, g⟩
        · simp only [upd, if_neg e] at h; exact I.look j y u q h
      · exact I
    · exact I
  | leave i =>
    refine ⟨I.tally, I.safe, fun j y u q h => ?_, I.live, I.rest, I.good⟩
    by_cases e : j = i
    · subst e; simp [act, upd] at h
    · simp only [act, upd, if_neg e] at h; exact I.look j y u q h
  | answer i h =>
    simp only [act]
    split
    · rename_i x t p g
      split
      · rename_i hh
        have ho : owns s (.cell x t) = some p := (I.look i x t p g).2
        obtain ⟨h1, h2, h3⟩ := I.inc ho
        refine ⟨?_, I.safe, I.look, h1, h2, h3⟩
        refine (I.tally.more (k := .handle h) hh).same (funext fun k => ?_)
        cases k <;> simp [owns, set, upd, St.inc]
      · exact I
    · exact I
  | consume i h =>
    simp only [act]
    split
    · rename_i p g
      split
      · rename_i hn
        refine ⟨?_, I.safe, I.look, I.live, I.rest, I.good⟩
        refine (I.tally.pass (k := .handle h) (k' := .new i) g hn).same (funext fun k => ?_)
        cases k <;> simp [owns, set, upd]
      · exact I
    · exact I
  | toRaw i h =>
    simp only [act]
    split
    · rename_i p g
      split
      · rename_i hn
        have ho : owns s (.handle h) = some p := g
        obtain ⟨h1, h2, h3⟩ := I.inc ho
        refine ⟨?_, I.safe, I.look, h1, h2, h3⟩
        refine (I.tally.more (k := .new i) hn).same (funext fun k => ?_)
        cases k <;> simp [owns, set, upd, St.inc]
      · exact I
    · exact I
  | copy i =>
    simp only [act]
    split
    · rename_i x t p g
      split
      · rename_i hn
        have ho : owns s (.cell x t) = some p := (I.look i x t p g).2
        obtain ⟨h1, h2, h3⟩ := I.inc ho
        refine ⟨?_, I.safe, I.look, h1, h2, h3⟩
        refine (I.tally.more (k := .new i) hn).same (funext fun k => ?_)
        cases k <;> simp [owns, set, upd, St.inc]
      · exact I
    · exact I
  | swap i =>
    simp only [act]
    split
    · rename_i x t p q g hn
      split
      · rename_i ho
        obtain ⟨hl, hc⟩ := I.look i x t p g
        refine ⟨?_, fun j r hr => ?_, fun j y u r h => ?_, I.live, I.rest, I.good⟩
        · have T1 := I.tally.pass (k := .cell x t) (k' := .old i) (p := p) hc ho
          have T2 := T1.pass (k := .new i) (k' := .cell x t) (p := q) (by simp [set, owns, hn]) (by simp [set])
          refine T2.same (funext fun k => ?_)
          cases k <;> simp [owns, set, upd, put2_apply]
          split <;> rfl
        · obtain ⟨h1, k, hk⟩ := I.safe j r hr
          refine ⟨h1, ?_⟩
          cases k with
          | cell y u =>
            by_cases e : y = x ∧ u = t
            · obtain ⟨rfl, rfl⟩ := e
              have hk : s.cell y u = some r := hk
              rw [hc] at hk
              exact ⟨.old i, by simpa [Keeps, upd] using hk⟩
            · exact ⟨.cell y u, by simpa [Keeps, put2_apply, e] using hk⟩
          | old k =>
            have hk : s.old k = some r := hk
            have e : k ≠ i := fun e => by rw [e, ho] at hk; cases hk
            exact ⟨.old k, by simpa [Keeps, upd, e] using hk⟩
          | bin n => exact ⟨.bin n, hk⟩
          | new k => exact hk.elim
          | handle k => exact hk.elim
        · by_cases e : j = i
          · subst e; simp [upd] at h
          · simp only [upd, if_neg e] at h
            obtain ⟨k1, k2⟩ := I.look j y u r h
            have ey : y ≠ x := fun ey => by rw [ey, hl] at k1; injection k1 with k1; exact e k1.symm
            exact ⟨k1, by simpa [put2_apply, ey] using k2⟩
      · exact I
    · exact I
  | store i x t =>
    simp only [act]
    split
    · rename_i q hn
      split
      · rename_i g
        obtain ⟨hl, hc⟩ := g
        refine ⟨?_, fun j r hr => ?_, fun j y u r h => ?_, I.live, I.rest, I.good⟩
        · refine (I.tally.pass (k := .new i) (k' := .cell x t) (p := q) hn hc).same (funext fun k => ?_)
          cases k <;> simp [owns, set, upd, put2_apply]
        · obtain ⟨h1, k, hk⟩ := I.safe j r hr
          refine ⟨h1, k, ?_⟩
          cases k with
          | cell y u =>
            have hk : s.cell y u = some r := hk
            have e : ¬ (y = x ∧ u = t) := fun e => by rw [e.1, e.2, hc] at hk; cases hk
            simpa [Keeps, put2_apply, e] using hk
          | old k => exact hk
          | bin n => exact hk
          | new k => exact hk.elim
          | handle k => exact hk.elim
        · obtain ⟨k1, k2⟩ := I.look j y u r h
          have e : ¬ (y = x ∧ u = t) := fun e => by rw [e.1, e.2, hc] at k2; cases k2
          exact ⟨k1, by simpa [put2_apply, e] using k2⟩
      · exact I
    · exact I
  | take i =>
    simp only [act]
    split
    · rename_i x t p g
      split
      · rename_i ho
        obtain ⟨hl, hc⟩ := I.look i x t p g
        refine ⟨?_, fun j r hr => ?_, fun j y u r h => ?_, I.live, I.rest, I.good⟩
        · refine (I.tally.pass (k := .cell x t) (k' := .old i) (p := p) hc ho).same (funext fun k => ?_)
          cases k <;> simp [owns, set, upd, put2_apply]
        · obtain ⟨h1, k, hk⟩ := I.safe j r hr
          refine ⟨h1, ?_⟩
          cases k with
          | cell y u =>
            by_cases e : y = x ∧ u = t
            · obtain ⟨rfl, rfl⟩ := e
              have hk : s.cell y u = some r := hk
              rw [hc] at hk
              exact ⟨.old i, by simpa [Keeps, upd] using hk⟩
            · exact ⟨.cell y u, by simpa [Keeps, put2_apply, e] using hk⟩
          | old k =>
            have hk : s.old k = some r := hk
            have e : k ≠ i := fun e => by rw [e, ho] at hk; cases hk
            exact ⟨.old k, by simpa [Keeps, upd, e] using hk⟩
          | bin n => exact ⟨.bin n, hk⟩
          | new k => exact hk.elim
          | handle k => exact hk.elim
        · by_cases e : j = i
          · subst e; simp [upd] at h
          · simp only [upd, if_neg e] at h
            obtain ⟨k1, k2⟩ := I.look j y u r h
            have ey : y ≠ x := fun ey => by rw [ey, hl] at k1; injection k1 with k1; exact e k1.symm
            exact ⟨k1, by simpa [put2_apply, ey] using k2⟩
      · exact I
    · exact I
  | move i x t =>
    simp only [act]
    split
    · rename_i q hn
      split
      · rename_i g
        obtain ⟨hl, hc⟩ := g
        refine ⟨?_, fun j r hr => ?_, fun j y u r h => ?_, I.live, I.rest, I.good⟩
        · refine (I.tally.pass (k := .old i) (k' := .cell x t) (p := q) hn hc).same (funext fun k => ?_)
          cases k <;> simp [owns, set, upd, put2_apply]
        · obtain ⟨h1, k, hk⟩ := I.safe j r hr
          refine ⟨h1, ?_⟩
          cases k with
          | cell y u =>
            have hk : s.cell y u = some r := hk
            have e : ¬ (y = x ∧ u = t) := fun e => by rw [e.1, e.2, hc] at hk; cases hk
            exact ⟨.cell y u, by simpa [Keeps, put2_apply, e] using hk⟩
          | old k =>
            have hk : s.old k = some r := hk
            by_cases e : k = i
            · subst e
              rw [hn] at hk
              exact ⟨.cell x t, by simpa [Keeps, put2_apply] using hk⟩
            · exact ⟨.old k, by simpa [Keeps, upd, e] using hk⟩
          | bin n => exact ⟨.bin n, hk⟩
          | new k => exact hk.elim
          | handle k => exact hk.elim
        · obtain ⟨k1, k2⟩ := I.look j y u r h
          have e : ¬ (y = x ∧ u = t) := fun e => by rw [e.1, e.2, hc] at k2; cases k2
          exact ⟨k1, by simpa [put2_apply, e] using k2⟩
      · exact I
    · exact I
  | retire i n =>
    simp only [act]
    split
    · rename_i p g
      split
      · rename_i hb
        obtain ⟨hb, hp⟩ := hb
        refine ⟨?_, fun j r hr => ?_, I.look, I.live, I.rest, I.good⟩
        · refine (I.tally.pass (k := .old i) (k' := .bin n) (p := p) g (by simp [owns, hb])).same (funext fun k => ?_)
          cases k <;> simp [owns, set, upd]
          split <;> simp
        · obtain ⟨h1, k, hk⟩ := I.safe j r hr
          refine ⟨h1, ?_⟩
          cases k with
          | cell y u => exact ⟨.cell y u, hk⟩
          | old k =>
            have hk : s.old k = some r := hk
            by_cases e : k = i
            · subst e
              rw [g] at hk
              injection hk with hk
              subst hk
              exact ⟨.bin n, s.pin.filter (s.home · == s.home k), by simp [upd], List.mem_filter.2 ⟨h1.1, by simpa [h1.2] using (show s.home k = true from P).symm⟩⟩
            · exact ⟨.old k, by simpa [Keeps, upd, e] using hk⟩
          | bin m =>
            obtain ⟨w, h3, h4⟩ := hk
            have e : m ≠ n := fun e => by rw [e, hb] at h3; cases h3
            exact ⟨.bin m, w, by simpa [upd, e] using h3, h4⟩
          | new k => exact hk.elim
          | handle k => exact hk.elim
      · exact I
    · exact I
  | free n =>
    simp only [act]
    split
    · rename_i p w g
      split
      · rename_i hw
        have ho : owns s (.bin n) = some p := by simp [owns, g]
        obtain ⟨h1, h2, h3⟩ := I.dec ho
        refine ⟨?_, fun j r hr => ?_, I.look, h1, h2, h3⟩
        · refine (I.tally.less ho).same (funext fun k => ?_)
          cases k <;> simp [owns, set, upd, St.dec]
          split <;> simp
        · obtain ⟨h1, k, hk⟩ := I.safe j r hr
          refine ⟨h1, k, ?_⟩
          cases k with
          | cell y u => exact hk
          | old k => exact hk
          | bin m =>
            obtain ⟨w', h3, h4⟩ := hk
            have e : m ≠ n := fun e => by
              rw [e, g] at h3
              injection h3 with h3
              injection h3 with _ h3
              subst h3 hw
              cases h4
            exact ⟨w', by simpa [upd, e, St.dec] using h3, h4⟩
          | new k => exact hk.elim
          | handle k => exact hk.elim
      · exact I
    · exact I
  | clear x t =>
    simp only [act]
    split
    · rename_i p g
      split
      · rename_i hw
        obtain ⟨hw, hl⟩ := hw
        have ho : owns s (.cell x t) = some p := g
        obtain ⟨h1, h2, h3⟩ := I.dec ho
        refine ⟨?_, fun j r hr => ?_, fun j y u r h => ?_, h1, h2, h3⟩
        · refine (I.tally.less ho).same (funext fun k => ?_)
          cases k <;> simp [owns, set, put2_apply, St.dec]
        · obtain ⟨⟨h1, h2⟩, _⟩ := I.safe j r hr
          have := List.all_eq_true.1 hw j h1
          simp [h2] at this
        · obtain ⟨k1, k2⟩ := I.look j y u r h
          have e : y ≠ x := fun e => by rw [e, hl] at k1; cases k1
          exact ⟨k1, by simpa [put2_apply, e] using k2⟩
      · exact I
    · exact I

theorem Exec.inv {σ : Nat → St V} {β : Nat → Act V} (E : Exec σ β) (P : ∀ n, Proper (σ n) (β n)) : ∀ n, Inv (σ n)
  | 0 => .start E.start
  | n + 1 => by rw [E.steps n]; exact (E.inv P n).step _ (P n)

/-- Only guards that are active are waited for. -/
theorem wait_step {s : St V} (h : ∀ n p w, s.bin n = some (p, w) → ∀ i ∈ w, i ∈ s.pin) (a : Act V) :
    ∀ n p w, (act s a).bin n = some (p, w) → ∀ i ∈ w, i ∈ (act s a).pin := by
  have keep : (act s a).bin = s.bin → (act s a).pin = s.pin → ∀ n p w, (act s a).bin n = some (p, w) → ∀ i ∈ w, i ∈ (act s a).pin := by
    intro h1 h2; rw [h1, h2]; exact h
  cases a with
  | pin i => exact fun n p w hn j hj => List.mem_cons_of_mem _ (h n p w hn j hj)
  | unpin i =>
    simp only [act]
    split
    · intro n p w hn j hj
      cases e : s.bin n with
      | none => simp [e] at hn
      | some b =>
        obtain ⟨q, v⟩ := b
        simp only [e, Option.map_some, Option.some.injEq, Prod.mk.injEq] at hn
        obtain ⟨rfl, rfl⟩ := hn
        have := List.mem_filter.1 hj
        exact List.mem_filter.2 ⟨h n q v e j this.1, this.2⟩
    · exact h
  | retire i m =>
    simp only [act]
    split
    · split
      · intro n p w hn j hj
        by_cases e : n = m
        · subst e
          simp only [upd, if_true, Option.some.injEq, Prod.mk.injEq] at hn
          rw [← hn.2] at hj
          exact (List.mem_filter.1 hj).1
        · simp only [upd, if_neg e] at hn; exact h n p w hn j hj
      · exact h
    · exact h
  | free m =>
    simp only [act]
    split
    · split
      · intro n p w hn j hj
        by_cases e : n = m
        · subst e; simp [upd] at hn
        · simp only [upd, if_neg e] at hn; exact h n p w hn j hj
      · exact h
    · exact h
  | _ =>
    refine keep ?_ ?_ <;> simp only [act] <;> (repeat' split) <;> rfl

theorem Exec.wait {σ : Nat → St V} {β : Nat → Act V} (E : Exec σ β) : ∀ n m p w, (σ n).bin m = some (p, w) → ∀ i ∈ w, i ∈ (σ n).pin
  | 0 => fun m p w h => by rw [E.start.bin] at h; cases h
  | n + 1 => by rw [E.steps n]; exact wait_step (E.wait n) _

/-- A reference stays, with its value, as long as its guard. -/
theorem refs_step {s : St V} {i p : Nat} (h : p ∈ s.refs i) (a : Act V) (ha : a ≠ .unpin i) : p ∈ (act s a).refs i := by
  cases a with
  | unpin j =>
    simp only [act]
    split
    · have : i ≠ j := fun e => ha (e ▸ rfl)
      simpa [upd, this] using h
    · exact h
  | load j x t =>
    simp only [act]
    split
    · split
      · by_cases e : i = j
        · subst e; simp [upd, h]
        · simpa [upd, e] using h
      · exact h
    · exact h
  | _ =>
    simp only [act] <;> (repeat' split) <;> exact h

/-- A value does not change. -/
theorem data_step {s : St V} (I : Inv s) (a : Act V) {p : Nat} {v : V} (h : s.data p = some v) :
    (act s a).data p = some v ∨ (act s a).data p = none := by
  have dec : ∀ q, (s.dec q).data p = some v ∨ (s.dec q).data p = none := fun q => by
    simp only [St.dec]
    split
    · by_cases e : p = q
      · right; simp [upd, e]
      · left; simpa [upd, e] using h
    · exact .inl h
  cases a with
  | make k q w =>
    simp only [act]
    split
    · rename_i g
      have e : p ≠ q := fun e => by have := (I.rest q g.1).2.1; rw [← e, h] at this; cases this
      left; simpa [upd, e] using h
    · exact .inl h
  | drop k =>
    simp only [act]
    split
    · exact dec _
    · exact .inl h
  | free k =>
    simp only [act]
    split
    · split
      · exact dec _
      · exact .inl h
    · exact .inl h
  | clear x t =>
    simp only [act]
    split
    · split
      · exact dec _
      · exact .inl h
    · exact .inl h
  | _ =>
    left
    simp only [act] <;> (repeat' split) <;> exact h

end Verif.ValueRace
