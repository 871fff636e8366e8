import Verif.Proof.TreeSolo
set_option linter.unusedSimpArgs false
set_option linter.unusedVariables false
set_option maxRecDepth 100000
/-!
# A thread that runs alone comes to the end of its call
-/
namespace Verif.Threads
open Verif.Spec
open Verif.Internode (Arr upd upd_same upd_ne)
open Verif.Perm (size get)
open Verif.Tree
variable {V : Type}

/-- Where the descent of a call goes on. -/
def atLeaf (o : Op V) (k : Key) (r l : Nat) : Pc V :=
  match o with
  | .get _ => .look o k l
  | .insert _ _ => .adv o k r maxBlinkHops l

theorem desc_alone {t : Tree V} {G : Ghost} (I : Inv0 t G) (o : Op V) {k : Key} {d : Bytes} {n r : Nat} : ∀ f p, hgt t p < f →
    InLow G d n k.ikey p → ∃ l, InLow G d n k.ikey l ∧ t.kind l = some .leaf ∧
      Leads false (t, .desc o k r p) (t, atLeaf o k r l) := by
  intro f
  induction f with
  | zero => intro p h; omega
  | succ f ih =>
    intro p hf hp
    obtain ⟨i, h1, h2, h3⟩ := id hp
    rcases I.kind_cases h1 with e | e
    · refine ⟨p, hp, e, ?_⟩
      cases o <;> exact Leads.step (by simp only [step, e]; rfl) (Leads.refl _)
    · have hin := I.inode p i e h1
      obtain ⟨a1, a2⟩ := pick_low hin h3
      obtain ⟨c, ic, hc⟩ := hin.child _ a1
      obtain ⟨l, g1, g2, g3⟩ := ih c (by have := hc.hgt; omega) ⟨ic, hc.dom, by rw [hc.pfx, h2], by rw [hc.lo]; exact a2⟩
      exact ⟨l, g1, g2, Leads.step (y := (t, .desc o k r c)) (by simp only [step, e, hc.eq]) g3⟩

theorem climb_alone {t : Tree V} {G : Ghost} (I : Inv0 t G) (o : Op V) {k : Key} {d : Bytes} {n p : Nat} (hp : InLayer G d n p) :
    ∃ r l, InLow G d n k.ikey r ∧ InLow G d n k.ikey l ∧ t.kind l = some .leaf ∧
      Leads false (t, .climb o k p) (t, atLeaf o k r l) := by
  obtain ⟨i, h1, h2⟩ := hp
  obtain ⟨r, ir, g1, g2, g3, g4⟩ := climb I (walkFuel t) p i h1 (by omega)
  have hr : InLow G d n k.ikey r := ⟨ir, g2, by rw [g3, h2], by rw [((I.up r ir g2).top g4).2.1]; omega⟩
  obtain ⟨l, c1, c2, c3⟩ := desc_alone I o (r := r) _ r (Nat.lt_succ_self _) hr
  exact ⟨r, l, hr, c1, c2, (climb_leads false _ _ g1).trans c3⟩

theorem adv_alone {t : Tree V} {G : Ghost} (I : Inv0 t G) {k : Key} {d : Bytes} {n : Nat} : ∀ f l, InLow G d n k.ikey l →
    t.kind l = some .leaf → ∃ l' ex, advance t k.ikey f l = .ok (l', ex) ∧ InLow G d n k.ikey l' ∧ t.kind l' = some .leaf := by
  intro f
  induction f with
  | zero => intro l h hk; exact ⟨l, true, rfl, h, hk⟩
  | succ f ih =>
    intro l h hk
    simp only [advance]
    cases hn : t.next l with
    | none => exact ⟨l, false, rfl, h, hk⟩
    | some q =>
      obtain ⟨nb, b1, b2, _⟩ := right_ok I h hk hn
      simp only [bind, Except.bind, b1]
      by_cases hle : nb ≤ k.ikey
      · rw [if_pos hle]; exact ih q (b2 hle).1 (b2 hle).2
      · rw [if_neg hle]; exact ⟨l, false, rfl, h, hk⟩

/-! ## Inserts -/

theorem insert_climb_alone {t : Tree V} {G : Ghost} (I : Inv0 t G) (ru : RU t G) (idb : IdB t G)
    {d : Bytes} {n : Nat} {k : Key} (hk : KS d k n) (d0 : Bytes) (v : V) {p : Nat} (hp : InLayer G d n p)
    (hfr : t.fresh + 10000 < 8 ^ 50) : ∃ t' x, Leads false (t, .climb (.insert d0 v) k p) (t', .done (.insert d0 v) x) := by
  obtain ⟨hk1, hk2, hk3, hk4⟩ := hk
  obtain ⟨i, h1, h2⟩ := hp
  obtain ⟨t', r, G', g1, _⟩ := insertLoop_ok (K := fun _ => True) (v := v) hk3 70 n t G k p i I ru idb hk1 h1 h2 hk2 hk4 (by omega)
    (Or.inl (by omega))
  exact ⟨t', r, insertLoop_leads _ _ _ _ g1⟩

theorem insert_sect_alone {t : Tree V} {G : Ghost} (I : Inv0 t G) (ru : RU t G) (idb : IdB t G)
    {d : Bytes} {n : Nat} {k : Key} (hk : KS d k n) (d0 : Bytes) (v : V) {r l : Nat} (hr : InLow G d n k.ikey r)
    (hl : InLow G d n k.ikey l) (hkd : t.kind l = some .leaf)
    (hfr : t.fresh + 10100 < 8 ^ 50) : ∃ t' x, Leads false (t, .sect (.insert d0 v) k r l) (t', .done (.insert d0 v) x) := by
  obtain ⟨hk1, hk2, hk3, hk4⟩ := id hk
  obtain ⟨ir, r1, r2, r3⟩ := hr
  obtain ⟨il, l1, l2, l3⟩ := hl
  obtain ⟨t', nx, G', e1, e2, e3, e4⟩ := crit_ok I ru idb hk1 hk2 hk4 hk3 v r1 r2 l1 hkd l2 l3 (by omega)
  rcases e4 with ⟨x, rfl, _⟩ | ⟨k', lr, n', ilr, rfl, _, g1, g2, g3, g4, g5, _⟩
  · exact ⟨t', x, Leads.step (by simp only [step, e1]) (Leads.refl _)⟩
  · obtain ⟨t2, x, h⟩ := insert_climb_alone e2.inv e2.ru e2.idb ⟨g1, g2, hk3, g5⟩ d0 v ⟨ilr, g3, g4⟩ (by omega)
    exact ⟨t2, x, Leads.step (y := (t', .climb (.insert d0 v) k' lr)) (by simp only [step, e1]) h⟩

theorem insert_adv_alone {t : Tree V} {G : Ghost} (I : Inv0 t G) (ru : RU t G) (idb : IdB t G)
    {d : Bytes} {n : Nat} {k : Key} (hk : KS d k n) (d0 : Bytes) (v : V) {r l f : Nat} (hr : InLow G d n k.ikey r)
    (hl : InLow G d n k.ikey l) (hkd : t.kind l = some .leaf)
    (hfr : t.fresh + 10100 < 8 ^ 50) : ∃ t' x, Leads false (t, .adv (.insert d0 v) k r f l) (t', .done (.insert d0 v) x) := by
  obtain ⟨l', ex, a1, a2, a3⟩ := adv_alone I f l hl hkd
  have lead := adv_leads (o := .insert d0 v) (r := r) false f l a1
  cases ex with
  | false =>
    obtain ⟨t', x, h⟩ := insert_sect_alone I ru idb hk d0 v hr a2 a3 hfr
    exact ⟨t', x, lead.trans (by simpa using h)⟩
  | true =>
    obtain ⟨i, hi, hp, _⟩ := I.root
    obtain ⟨⟨full, m, c1, c2⟩, hk2, hk3, hk4⟩ := hk
    have hk' : KS (d.drop (8 * n)) k 0 := by
      refine ⟨⟨full, m + n, c1, ?_⟩, by omega, by rw [List.length_drop]; omega, Or.inl rfl⟩
      rw [← c2, List.drop_drop]
      congr 1; omega
    obtain ⟨t', x, h⟩ := insert_climb_alone I ru idb hk' d0 v (p := t.root) ⟨i, hi, by rw [hp]; rfl⟩ (by omega)
    exact ⟨t', x, lead.trans (by simpa using h)⟩

/-! ## Lookups -/

/-- Bound on the number of hops to the right. -/
def hops (ik : Nat) (i : Info) : Nat := 2 * (ik - i.lo) + if i.hi = some i.lo then 1 else 0

theorem look_alone {t : Tree V} {G : Ghost} (I : Inv0 t G) (ru : RU t G) {d : Bytes} {n : Nat} {k : Key} (hk : KS d k n) (o : Op V) :
    ∀ f l i, G l = some i → hops k.ikey i < f → i.pfx.bytes = d.take (8 * n) → i.lo ≤ k.ikey → t.kind l = some .leaf →
      (∃ x, Leads false (t, .look o k l) (t, .done o x)) ∨
      ∃ q, Leads false (t, .look o k l) (t, .climb o k.shift q) ∧ KS d k.shift (n + 1) ∧ InLayer G d (n + 1) q := by
  intro f
  induction f with
  | zero => intro l i _ h; omega
  | succ f ih =>
    intro l i h1 hf h2 h3 hkd
    have hl : InLow G d n k.ikey l := ⟨i, h1, h2, h3⟩
    have e : step false t (.look o k l) = (t, lookStep t o k l) := rfl
    rcases look_ok I ru hk hl hkd o with ⟨v, b1, _⟩ | ⟨q, b1, b2, b3⟩ | ⟨b1, _⟩
    · exact Or.inl ⟨some v, Leads.step (by rw [e, b1]) (Leads.refl _)⟩
    · exact Or.inr ⟨q, Leads.step (by rw [e, b1]) (Leads.refl _), b2, b3⟩
    · have go : ∀ {z}, Leads false (t, .next o k l) z → Leads false (t, .look o k l) z := fun h =>
        Leads.step (by rw [e, b1]) h
      cases hnx : t.next l with
      | none => exact Or.inl ⟨none, go (Leads.step (by simp only [step, hnx]) (Leads.refl _))⟩
      | some q =>
        obtain ⟨iq, hq, hb⟩ := next_bound I hkd h1 hnx
        by_cases hle : iq.lo ≤ k.ikey
        · have hlohi := I.lohi l i h1
          rw [hq.lo] at hlohi
          simp only [leHi_some] at hlohi
          have hlt : hops k.ikey iq < f := by
            unfold hops at hf ⊢
            by_cases he : i.hi = some i.lo
            · have hne := hq.tight (Or.inl he)
              have : iq.hi ≠ some iq.lo := by
                intro c
                have := hne _ c
                omega
              rw [if_pos he] at hf
              rw [if_neg this]
              have : iq.lo = i.lo := by
                have := hq.lo
                rw [he] at this
                exact (Option.some.inj this).symm
              rw [this]; omega
            · rw [if_neg he] at hf
              have : i.lo ≠ iq.lo := by
                intro c; apply he; rw [hq.lo, c]
              split <;> omega
          have hqp : iq.pfx.bytes = d.take (8 * n) := by rw [hq.pfx, h2]
          have st : ∀ {z}, Leads false (t, .look o k q) z → Leads false (t, .look o k l) z := fun h =>
            go (Leads.step (by simp only [step, hnx, hb, if_pos hle]) h)
          rcases ih q iq hq.dom hlt hqp hle hq.kind with ⟨x, g⟩ | ⟨q', g, g'⟩
          · exact Or.inl ⟨x, st g⟩
          · exact Or.inr ⟨q', st g, g'⟩
        · exact Or.inl ⟨none, go (Leads.step (by simp only [step, hnx, hb, if_neg hle]) (Leads.refl _))⟩

theorem get_climb_alone {t : Tree V} {G : Ghost} (I : Inv0 t G) (ru : RU t G) {d : Bytes} (d0 : Bytes) : ∀ f n k p, d.length - 8 * n < f →
    KS d k n → InLayer G d n p → ∃ x, Leads false (t, .climb (.get d0) k p) (t, .done (.get d0 : Op V) x) := by
  intro f
  induction f with
  | zero => intro n k p h; omega
  | succ f ih =>
    intro n k p hf hk hp
    obtain ⟨r, l, _, ⟨i, b1, b2, b3⟩, b4, b5⟩ := climb_alone I (.get d0 : Op V) (k := k) hp
    rcases look_alone I ru hk (.get d0) _ l i b1 (Nat.lt_succ_self _) b2 b3 b4 with ⟨x, g⟩ | ⟨q, g, g1, g2⟩
    · exact ⟨x, b5.trans g⟩
    · have h1 := g1.2.1
      obtain ⟨x, h⟩ := ih (n + 1) k.shift q (by omega) g1 g2
      exact ⟨x, b5.trans (g.trans h)⟩

theorem get_look_alone {t : Tree V} {G : Ghost} (I : Inv0 t G) (ru : RU t G) {d : Bytes} (d0 : Bytes) {n : Nat} {k : Key} {l : Nat}
    (hk : KS d k n) (hl : InLow G d n k.ikey l) (hkd : t.kind l = some .leaf) :
    ∃ x, Leads false (t, .look (.get d0) k l) (t, .done (.get d0 : Op V) x) := by
  obtain ⟨i, b1, b2, b3⟩ := hl
  rcases look_alone I ru hk (.get d0) _ l i b1 (Nat.lt_succ_self _) b2 b3 hkd with ⟨x, g⟩ | ⟨q, g, g1, g2⟩
  · exact ⟨x, g⟩
  · obtain ⟨x, h⟩ := get_climb_alone (V := V) I ru d0 _ (n + 1) k.shift q (Nat.lt_succ_self _) g1 g2
    exact ⟨x, g.trans h⟩

/-! ## All states -/

theorem alone {t : Tree V} {G : Ghost} (I : Inv0 t G) (ru : RU t G) (idb : IdB t G) {m : Nat} {c : Pc V} (T : TOk t G m c)
    (hfr : t.fresh + 10100 < 8 ^ 50) {o : Op V} (ho : c.op? = some o) :
    (c = .fail o .panic ∧ 256 < o.key.length) ∨ ∃ t' x, Leads false (t, c) (t', .done o x) := by
  cases c with
  | idle => cases ho
  | done o' x => cases ho; exact Or.inr ⟨t, x, Leads.refl _⟩
  | fail o' e => cases ho; obtain ⟨rfl, h⟩ := T; exact Or.inl ⟨rfl, h⟩
  | climb o' k p =>
    cases ho
    obtain ⟨n, hk, hp⟩ := T
    cases o with
    | insert d v => exact Or.inr (insert_climb_alone I ru idb hk.ks d v hp (by omega))
    | get d =>
      obtain ⟨x, h⟩ := get_climb_alone (V := V) I ru d _ n k p (Nat.lt_succ_self _) hk.ks hp
      exact Or.inr ⟨t, x, h⟩
  | desc o' k r p =>
    cases ho
    obtain ⟨n, hk, hr, hp⟩ := T
    obtain ⟨l, a1, a2, a3⟩ := desc_alone I o (r := r) _ p (Nat.lt_succ_self _) hp
    cases o with
    | insert d v =>
      obtain ⟨t', x, h⟩ := insert_adv_alone I ru idb hk.ks d v (f := maxBlinkHops) hr a1 a2 hfr
      exact Or.inr ⟨t', x, a3.trans h⟩
    | get d =>
      obtain ⟨x, h⟩ := get_look_alone I ru d hk.ks a1 a2
      exact Or.inr ⟨t, x, a3.trans h⟩
  | adv o' k r f l =>
    cases ho
    obtain ⟨⟨d, v, rfl⟩, n, hk, hr, hl, hkd⟩ := T
    exact Or.inr (insert_adv_alone I ru idb hk.ks d v hr hl hkd hfr)
  | sect o' k r l =>
    cases ho
    obtain ⟨⟨d, v, rfl⟩, n, hk, hr, hl, hkd⟩ := T
    exact Or.inr (insert_sect_alone I ru idb hk.ks d v hr hl hkd hfr)
  | look o' k l =>
    cases ho
    obtain ⟨⟨d, rfl⟩, n, hk, hl, hkd⟩ := T
    obtain ⟨x, h⟩ := get_look_alone I ru d hk.ks hl hkd
    exact Or.inr ⟨t, x, h⟩
  | next o' k l =>
    cases ho
    obtain ⟨⟨d, rfl⟩, n, hk, hl, hkd⟩ := T
    cases hnx : t.next l with
    | none => exact Or.inr ⟨t, none, Leads.step (by simp only [step, hnx]) (Leads.refl _)⟩
    | some q =>
      obtain ⟨nb, b1, b2, _⟩ := right_ok I hl hkd hnx
      by_cases hle : nb ≤ k.ikey
      · obtain ⟨x, h⟩ := get_look_alone I ru d hk.ks (b2 hle).1 (b2 hle).2
        exact Or.inr ⟨t, x, Leads.step (by simp only [step, hnx, b1, if_pos hle]) h⟩
      · exact Or.inr ⟨t, none, Leads.step (by simp only [step, hnx, b1, if_neg hle]) (Leads.refl _)⟩

end Verif.Threads
