import Verif.Proof.OpsHist
set_option linter.unusedSimpArgs false
set_option linter.unusedVariables false
/-! A call of `get` is a lookup of `Model/Whole.lean`. -/
namespace Verif.Ops
open Verif.Internode (upd upd_same upd_ne)
open Verif.Spec (Bytes)
open Verif.Whole (Inside Frame onLeaves beside lact inIndex)
variable {V : Type} {fixed strict : Bool} {τ : Nat → St V} {β : Nat → Option (Act V)} {N : Nat}

theorem Exec.still (E : Exec fixed strict τ β) (C : Clean strict τ β N) {n i : Nat} (hn : n < N) (hr : ¬ Runs β i n) : Frame (τ n).w (τ (n + 1)).w i := by
  cases e : β n with
  | none => rw [(none_eq E e).1]; exact Frame.refl _ _
  | some x =>
    cases x with
    | call j o => rw [(call_eq E e).1]; exact Frame.refl _ _
    | run j y qs =>
      have hij : j ≠ i := by rintro rfl; exact hr ⟨y, qs, e⟩
      obtain ⟨g1, _, _, _, g5⟩ := run_eq E e
      cases g : (next (τ n) j y qs).1 with
      | none => rw [g1, g]; exact Frame.refl _ _
      | some a =>
        refine E.frame C hn (g5.trans g) ?_
        rcases next_who g with k | k <;> rw [k]
        · exact fun k' => hij (Option.some.inj k')
        · nofun

/-- A lookup that reads a value as a layer or the other way round in the end. -/
inductive Miss (σ : Nat → Whole.St V) (α : Nat → Option (Whole.Act V)) (i : Nat) (d : Bytes) : Nat → Nat → Nat → Nat → Prop
  | here {L m a c b saw} (h : Whole.Part σ α i L a c b (Key.shiftTimes m (Key.mk' d)) .misread saw) : Miss σ α i d L m a b
  | down {L m a c b q a' e w} (h : Whole.Part σ α i L a c b (Key.shiftTimes m (Key.mk' d)) (.descend q) w)
      (hc : b ≤ a') (h' : Miss σ α i d q (m + 1) a' e) : Miss σ α i d L m a e

theorem Miss.le {σ : Nat → Whole.St V} {α : Nat → Option (Whole.Act V)} {i a b L m : Nat} {d : Bytes} (h : Miss σ α i d L m a b) : a < b := by
  induction h with
  | here h => have := h.lt; have := h.le; omega
  | down h _ _ ih => have := h.lt; have := h.le; omega

/-- There is none. -/
theorem Miss.none {σ : Nat → Whole.St V} {α : Nat → Option (Whole.Act V)} {i a b L m : Nat} {d : Bytes} (hg : Miss σ α i d L m a b) :
    Whole.Exec fixed strict σ α → Whole.Clean strict σ α N → b ≤ N → Forest.Few (Whole.upTo N σ) a b →
    (d = [] → ∀ j, a ≤ j → j ≤ b → ¬ Forest.InTransit (Whole.upTo N σ j) d) → (Whole.upTo N σ a).up L = true →
    Forest.Under ((Whole.upTo N σ a).pre L) d → ((Whole.upTo N σ a).pre L).length = 8 * m → False := by
  induction hg with
  | here hl =>
    rename_i L m a c b saw
    intro E C hb hr hz hu hd hp
    have F := E.forest C
    have hm := (F.basic a).made L hu
    have := hl.lt; have := hl.le
    have hac : a ≤ c + 1 := by omega
    have e := F.pre_mono hac hm
    rcases F.seen (F.up_mono hac hu) (by rw [e]; exact hd) (by rw [e]; exact hp) (hl.forest E C hb) (hr.sub hac (by omega) (Nat.le_refl b))
      (fun e j h1 h2 => hz e j (by omega) h2) with e | ⟨e, _⟩
    · cases e
    · exact e rfl
  | down hl hc hg' ih =>
    rename_i L m a c b q a' e w
    intro E C hb hr hz hu hd hp
    have F := E.forest C
    have hm := (F.basic a).made L hu
    have := hl.lt; have := hl.le; have := hg'.le
    have hac : a ≤ c + 1 := by omega
    have ee := F.pre_mono hac hm
    rcases F.seen (F.up_mono hac hu) (by rw [ee]; exact hd) (by rw [ee]; exact hp) (hl.forest E C (by omega)) (hr.sub hac (by omega) (by omega))
      (fun e j h1 h2 => hz e j (by omega) (by omega)) with e | ⟨_, j, h1, h2, h3⟩
    · cases e
    · have hj : a ≤ j := by omega
      obtain ⟨g1, g2, g3⟩ := F.goes_down (F.up_mono hj hu) (by rw [F.pre_mono hj hm]; exact hd) (by rw [F.pre_mono hj hm]; exact hp) h3 (c := a') (by omega)
      exact ih E C hb (hr.sub (by omega) (by omega) (Nat.le_refl _)) (fun e j h1 h2 => hz e j (by omega) h2) g1 g2 g3

/-- What is left to do in layer `L` completes a lookup that began after step `a`. -/
def Pre (τ : Nat → St V) (β : Nat → Option (Act V)) (i : Nat) (d : Bytes) (a L m c : Nat) : Prop :=
  (∀ a' e r saw, c ≤ a' → Whole.Get (tree τ) (moves τ β) i d L m a' e r saw → ∃ a'', a < a'' ∧ Whole.Get (tree τ) (moves τ β) i d 0 0 a'' e r saw) ∧
    ∀ a' e, c ≤ a' → Miss (tree τ) (moves τ β) i d L m a' e → ∃ a'', a < a'' ∧ Miss (tree τ) (moves τ β) i d 0 0 a'' e

/-- The lookup in a layer has called and is inside from step `c` to step `e`. -/
structure In (τ : Nat → St V) (β : Nat → Option (Act V)) (i : Nat) (d : Bytes) (a L m c e : Nat) : Prop where
  pre : Pre τ β i d a L m c
  lt : c < e
  call : moves τ β c = some (.inLayer L (.call i (Key.shiftTimes m (Key.mk' d)) false))
  free : ¬ Inside (τ c).w L i
  inside : ∀ k, c < k → k ≤ e → Inside (τ k).w L i
  gt : a < c
  came : (τ c).ph i = .enter L m

/-- It has entered the leaves at step `e`. -/
structure Past (τ : Nat → St V) (β : Nat → Option (Act V)) (i : Nat) (d : Bytes) (a L m c e n : Nat) : Prop extends In τ β i d a L m c e where
  enter : moves τ β e = some (.inLayer L (.enter i))
  out : ¬ Inside (τ (e + 1)).w L i
  le : e < n
  made : (τ n).w.f.made L = true

def NotDone (τ : Nat → St V) (i L e b : Nat) : Prop := ∀ k, e < k → k < b → ∀ k' r w, ((τ k).w.f.layer L).rd i ≠ .done k' r w

/-- What a call of `get` has done so far. -/
def Trail (τ : Nat → St V) (β : Nat → Option (Act V)) (i : Nat) (d : Bytes) (a n : Nat) : Ph V → Prop
  | .enter L m => Pre τ β i d a L m n
  | .down L m => (∃ c, In τ β i d a L m c n) ∨ ¬ Inside (τ n).w L i
  | .read L m => ∃ c e, Past τ β i d a L m c e n ∧
      (NotDone τ i L e (n + 1) ∨ ∃ b k r w, e < b ∧ b ≤ n ∧ NotDone τ i L e b ∧ ((τ b).w.f.layer L).rd i = .done k r w ∧
        ((τ n).w.f.layer L).rd i = .done k r w)
  | .ret r => ∃ a' b saw, a < a' ∧ b < n ∧ Whole.Get (tree τ) (moves τ β) i d 0 0 a' b r saw ∧
      (saw = true → ∃ n' L m k o, a < n' ∧ n' < n ∧ (τ n').ph i = .read L m ∧ ((τ n').w.f.layer L).rd i = .done k o true)
  | .err => ∃ a' b, a < a' ∧ b < n ∧ Miss (tree τ) (moves τ β) i d 0 0 a' b
  | _ => True

section
variable {i : Nat} {d : Bytes} {a L m n : Nat}

theorem In.more {c e : Nat} (h : In τ β i d a L m c e) (hi : Inside (τ (e + 1)).w L i) : In τ β i d a L m c (e + 1) :=
  ⟨h.pre, Nat.lt_succ_of_lt h.lt, h.call, h.free, fun k k1 k2 => by
    by_cases g : k = e + 1
    · rw [g]; exact hi
    · exact h.inside k k1 (by omega), h.gt, h.came⟩

theorem NotDone.more {e b : Nat} (h : NotDone τ i L e b) (hb : ∀ k' r w, ((τ b).w.f.layer L).rd i ≠ .done k' r w) : NotDone τ i L e (b + 1) := by
  intro k k1 k2
  by_cases g : k = b
  · rw [g]; exact hb
  · exact h k k1 (by omega)

theorem Past.part {c e b : Nat} (h : Past τ β i d a L m c e n) (hb : e < b) (hn : NotDone τ i L e b) {k : Key} {r : Race.Out V} {w : Bool}
    (he : ((τ b).w.f.layer L).rd i = .done k r w) : Whole.Part (tree τ) (moves τ β) i L c e b (Key.shiftTimes m (Key.mk' d)) r w :=
  ⟨h.free, h.call, h.lt, h.inside, h.enter, h.out, hb, hn, k, he⟩

/-- Others do not disturb. -/
theorem Trail.other (E : Exec fixed strict τ β) (C : Clean strict τ β N) (hn : n < N) (hr : ¬ Runs β i n) {p : Ph V} (h : Trail τ β i d a n p) :
    Trail τ β i d a (n + 1) p := by
  have F := E.still C hn hr
  cases p with
  | enter L m => exact ⟨fun a' e r saw h1 => h.1 a' e r saw (by omega), fun a' e h1 => h.2 a' e (by omega)⟩
  | down L m =>
    by_cases g : Inside (τ (n + 1)).w L i
    · rcases h with ⟨c, h⟩ | h
      · exact .inl ⟨c, h.more g⟩
      · exact absurd ((Inside.frame F).1 g) h
    · exact .inr g
  | read L m =>
    obtain ⟨c, e, h1, h2⟩ := h
    have er := F.rd L h1.made
    refine ⟨c, e, ⟨h1.toIn, h1.enter, h1.out, Nat.lt_succ_of_lt h1.le, F.made L h1.made⟩, ?_⟩
    rcases h2 with h2 | ⟨b, k, r, w, b1, b2, b3, b4, b5⟩
    · left
      refine h2.more ?_
      rw [er]; exact h2 n h1.le (Nat.lt_succ_self n)
    · exact .inr ⟨b, k, r, w, b1, by omega, b3, b4, by rw [er]; exact b5⟩
  | ret r =>
    obtain ⟨a', b, saw, h1, h2, h3, h4⟩ := h
    refine ⟨a', b, saw, h1, by omega, h3, fun g => ?_⟩
    obtain ⟨n', L, m, k, o, k1, k2, k3⟩ := h4 g
    exact ⟨n', L, m, k, o, k1, by omega, k3⟩
  | err =>
    obtain ⟨a', b, h1, h2, h3⟩ := h
    exact ⟨a', b, h1, by omega, h3⟩
  | _ => trivial

/-- A step of the lookup. -/
theorem Trail.own (E : Exec fixed strict τ β) (C : Clean strict τ β N) (hn : n < N) (han : a < n) {y : Nat} {qs : List Nat} (er : β n = some (.run i y qs))
    (ho : (τ n).op i = .get d) (hb : ((τ n).ph i).over = false) (h : Trail τ β i d a n ((τ n).ph i)) : Trail τ β i d a (n + 1) ((τ (n + 1)).ph i) := by
  have K := E.know C (n := n) (by omega)
  have P := E.phases C n (by omega) i
  have P' := E.phases C (n + 1) (by omega) i
  obtain ⟨g1, g2, g3, _, g5⟩ := run_eq E er
  have ep : (τ (n + 1)).ph i = (next (τ n) i y qs).2 := by rw [g3, upd_same]
  rw [g2, ho] at P'
  rw [ho] at P
  have X : PhOk (τ (n + 1)).w (.get d) i ((τ (n + 1)).ph i) := P'
  rw [ep] at X ⊢
  unfold next at g1 g5 X ⊢
  simp only at g1 g5 X ⊢
  cases e : (τ n).ph i with
  | idle => rw [e] at hb; cases hb
  | ret r => rw [e] at hb; cases hb
  | enter L m =>
    rw [e] at h P
    simp only [e] at g1 g5 ⊢
    rw [ho] at g5
    by_cases g : Inside (τ (n + 1)).w L i
    · refine .inl ⟨n, h, Nat.lt_succ_self n, g5, (P L).out, fun k k1 k2 => ?_, han, e⟩
      rw [show k = n + 1 by omega]; exact g
    · exact .inr g
  | down L m =>
    rw [e] at h P
    simp only [e] at g1 g5 X ⊢
    rw [ho] at g1 g5 X ⊢
    have wait : ¬ Inside (τ n).w L i → ¬ Inside (τ (n + 1)).w L i → Trail τ β i d a (n + 1) (.down L m) := fun _ g => .inr g
    have stay : (¬ Inside (τ n).w L i → ¬ Inside (τ (n + 1)).w L i) → Trail τ β i d a (n + 1) (.down L m) := by
      intro g
      by_cases g' : Inside (τ (n + 1)).w L i
      · rcases h with ⟨c, h⟩ | h
        · exact .inl ⟨c, h.more g'⟩
        · exact absurd g' (g h)
      · exact .inr g'
    unfold down at g1 g5 X ⊢
    cases hp : ((τ n).w.side L).ix.pc i with
    | look o l =>
      simp only [hp] at g1 g5 X ⊢
      have hu : (τ n).w.f.up L = true := by
        cases e : (τ n).w.f.up L with
        | true => rfl
        | false => rw [K.ok.unused L e] at hp; cases hp
      have hm := K.ok.basic.made L hu
      have hin : Inside (τ n).w L i := by unfold Inside; rw [hp]; exact ⟨nofun, nofun⟩
      rcases h with ⟨c, h⟩ | h
      · have en : after fixed strict (τ n).w (some (.inLayer L (.enter i))) = Whole.act fixed strict (τ n).w (.inLayer L (.enter i)) := rfl
        rw [en] at g1
        refine ⟨c, n, ⟨h, g5, X.2, Nat.lt_succ_self n, ?_⟩, .inl fun k k1 k2 => ?_⟩
        · rw [g1, post_made hu]; exact hm
        · rw [show k = n + 1 by omega, g1, post_layer_same hu]
          have eo : onLeaves ((τ n).w.lay L) (.enter i) = some (.start i (((τ n).w.side L).leaf l) (((τ n).w.side L).key i)) := by
            simp only [onLeaves]
            rcases quiet_cases (P.2 hm) with g' | ⟨k, r, w, g'⟩
            · rw [show ((τ n).w.lay L).s = (τ n).w.side L from rfl, hp, show ((τ n).w.lay L).c.rd i = _ from g']
            · rw [show ((τ n).w.lay L).s = (τ n).w.side L from rfl, hp, show ((τ n).w.lay L).c.rd i = _ from g']
          unfold lact
          rw [eo]
          show ∀ k' r w, upd _ i _ i ≠ _
          rw [upd_same]
          nofun
      · exact absurd hin h
    | adv o r k l =>
      simp only [hp] at g1 g5 ⊢
      refine stay fun g => absurd ?_ g
      unfold Inside; rw [hp]; exact ⟨nofun, nofun⟩
    | sect o r l =>
      have hin : Inside (τ n).w L i := by unfold Inside; rw [hp]; exact ⟨nofun, nofun⟩
      simp only [hp] at g1 g5 ⊢
      exact stay fun g => absurd hin g
    | fail o r => exact absurd hp (K.fine _ _ _ _)
    | idle =>
      simp only [hp] at g1 ⊢
      refine stay fun g g' => g ?_
      rw [if_pos (show inIndex Index.Pc.idle = true from rfl)] at g1
      have en : after fixed strict (τ n).w (some (.inLayer L (.walk i))) = Whole.act fixed strict (τ n).w (.inLayer L (.walk i)) := rfl
      rw [en] at g1
      cases hu : (τ n).w.f.up L with
      | false =>
        rw [g1] at g'
        simp only [Whole.act, hu] at g'
        exact g'
      | true =>
        unfold Inside at g' ⊢
        rw [g1, post_side_same hu] at g'
        simp only [beside] at g'
        rw [show ((τ n).w.lay L).s = (τ n).w.side L from rfl, hp, if_pos (show inIndex Index.Pc.idle = true from rfl)] at g'
        simp only [Index.act, hp, Index.step, upd_same] at g'
        exact absurd rfl g'.1
    | done o r =>
      simp only [hp] at g1 ⊢
      refine stay fun g g' => g ?_
      rw [if_pos (show inIndex (Index.Pc.done o r) = true from rfl)] at g1
      have en : after fixed strict (τ n).w (some (.inLayer L (.walk i))) = Whole.act fixed strict (τ n).w (.inLayer L (.walk i)) := rfl
      rw [en] at g1
      cases hu : (τ n).w.f.up L with
      | false =>
        rw [g1] at g'
        simp only [Whole.act, hu] at g'
        exact g'
      | true =>
        unfold Inside at g' ⊢
        rw [g1, post_side_same hu] at g'
        simp only [beside] at g'
        rw [show ((τ n).w.lay L).s = (τ n).w.side L from rfl, hp, if_pos (show inIndex (Index.Pc.done o r) = true from rfl)] at g'
        simp only [Index.act, hp, Index.step, upd_same] at g'
        exact absurd rfl (g'.2 o r)
    | _ =>
      have hin : Inside (τ n).w L i := by unfold Inside; rw [hp]; exact ⟨nofun, nofun⟩
      simp only [hp]
      exact stay fun g => absurd hin g
  | read L m =>
    rw [e] at h
    obtain ⟨c, e', h1, h2⟩ := h
    simp only [e] at g1 ⊢
    cases hd : ((τ n).w.f.layer L).rd i with
    | done k r w =>
      simp only [hd]
      rcases h2 with h2 | ⟨b, k', r', w', b1, b2, b3, b4, b5⟩
      · exact absurd hd (h2 n h1.le (Nat.lt_succ_self n) _ _ _)
      · rw [hd] at b5
        cases b5
        have Q := h1.part b1 b3 b4
        cases r with
        | value v =>
          obtain ⟨a'', k1, k2⟩ := h1.pre.1 c b _ _ (Nat.le_refl c) (.found Q)
          exact ⟨a'', b, w, k1, by omega, k2, fun g => ⟨n, L, m, k, _, han, Nat.lt_succ_self n, e, by rw [hd, g]⟩⟩
        | absent =>
          obtain ⟨a'', k1, k2⟩ := h1.pre.1 c b _ _ (Nat.le_refl c) (.absent Q)
          exact ⟨a'', b, w, k1, by omega, k2, fun g => ⟨n, L, m, k, _, han, Nat.lt_succ_self n, e, by rw [hd, g]⟩⟩
        | descend q =>
          refine ⟨fun a' e'' r saw k1 k2 => ?_, fun a' e'' k1 k2 => ?_⟩
          · exact h1.pre.1 c e'' r saw (Nat.le_refl c) (.down Q (by omega) k2)
          · exact h1.pre.2 c e'' (Nat.le_refl c) (.down Q (by omega) k2)
        | misread =>
          obtain ⟨a'', k1, k2⟩ := h1.pre.2 c b (Nat.le_refl c) (.here Q)
          exact ⟨a'', b, k1, by omega, k2⟩
    | _ =>
      simp only [hd] at g1 ⊢
      rcases h2 with h2 | ⟨b, k', r', w', b1, b2, b3, b4, b5⟩
      · have hm : (τ (n + 1)).w.f.made L = true := by
          rw [g1]
          show (Whole.act fixed strict (τ n).w (.inLayer L (.read i))).f.made L = true
          cases hu : (τ n).w.f.up L with
          | false => simp only [Whole.act, hu]; exact h1.made
          | true => rw [post_made hu]; exact h1.made
        refine ⟨c, e', ⟨h1.toIn, h1.enter, h1.out, Nat.lt_succ_of_lt h1.le, hm⟩, ?_⟩
        by_cases hx : ∃ k r w, ((τ (n + 1)).w.f.layer L).rd i = .done k r w
        · obtain ⟨k, r, w, hx⟩ := hx
          exact .inr ⟨n + 1, k, r, w, by have := h1.le; omega, Nat.le_refl _, h2, hx, hx⟩
        · exact .inl (h2.more fun k r w g => hx ⟨k, r, w, g⟩)
      · rw [hd] at b5; cases b5
  | store => rw [e] at P; exact absurd P id
  | publish => rw [e] at P; exact absurd P id
  | conv => rw [e] at P; exact absurd P id
  | freeze => rw [e] at P; exact absurd P id
  | part => rw [e] at P; exact absurd P id
  | prop => rw [e] at P; exact absurd P id
  | undo => rw [e] at P; exact absurd P id
  | close => rw [e] at P; exact absurd P id
  | drop => rw [e] at P; exact absurd P id
  | count => rw [e] at P; exact absurd P id
  | err =>
    rw [e] at h
    obtain ⟨a', b, h1, h2, h3⟩ := h
    exact ⟨a', b, h1, by omega, h3⟩
end

/-- A call of `get` so far. -/
theorem Open.trail (E : Exec fixed strict τ β) {i a b : Nat} {d : Bytes} (h : Open τ β i (.get d) a b) (C : Clean strict τ β (b + 1)) :
    ∀ n, a < n → n ≤ b + 1 → Trail τ β i d a n ((τ n).ph i) := by
  intro n
  induction n with
  | zero => intro h1; cases h1
  | succ n ih =>
    intro h1 h2
    by_cases e : n = a
    · subst e
      rw [h.starts E]
      exact ⟨fun a' e r saw h1 hg => ⟨a', h1, hg⟩, fun a' e h1 hg => ⟨a', h1, hg⟩⟩
    · have ih := ih (by omega) (by omega)
      by_cases hr : Runs β i n
      · obtain ⟨y, qs, er⟩ := hr
        exact Trail.own E C (by omega) (by omega) er (h.op E n (by omega) (by omega)) (h.busy n (by omega) (by omega)) ih
      · rw [h.other E (by omega) (by omega) hr]
        exact ih.other E C (by omega) hr

/-- A call of `get` that has returned is a lookup of `Model/Whole.lean` within the call. -/
theorem Call.lookup (E : Exec fixed strict τ β) {i a b : Nat} {d : Bytes} {r : Option V} (h : Call τ β i (.get d) a b r) (C : Clean strict τ β (b + 1)) :
    ∃ a' b' saw, a < a' ∧ b' ≤ b ∧ Whole.Get (tree τ) (moves τ β) i d 0 0 a' b' r saw ∧
      (saw = true → ∃ n' L m k o, a < n' ∧ n' ≤ b ∧ (τ n').ph i = .read L m ∧ ((τ n').w.f.layer L).rd i = .done k o true) := by
  have := h.busy.trail E C (b + 1) (Nat.lt_succ_of_lt h.busy.lt) (Nat.le_refl _)
  rw [h.ends] at this
  obtain ⟨a', b', saw, h1, h2, h3, h4⟩ := this
  refine ⟨a', b', saw, h1, by omega, h3, fun g => ?_⟩
  obtain ⟨n', L, m, k, o, k1, k2, k3⟩ := h4 g
  exact ⟨n', L, m, k, o, k1, by omega, k3⟩

/-- A call of `get` does not fail. -/
theorem Open.sound (E : Exec fixed strict τ β) {i a b : Nat} {d : Bytes} (h : Open τ β i (.get d) a b) (C : Clean strict τ β (b + 1))
    (hr : Forest.Few (Whole.leaves (tree τ)) a b) (hz : d = [] → ∀ j, a ≤ j → j ≤ b → ¬ Forest.InTransit (τ j).w.f d) : (τ (b + 1)).ph i ≠ .err := by
  intro he
  have := h.trail E C (b + 1) (Nat.lt_succ_of_lt h.lt) (Nat.le_refl _)
  rw [he] at this
  obtain ⟨a', b', h1, h2, h3⟩ := this
  have := h3.le
  obtain ⟨g1, g2, g3⟩ := (E.whole.forest C).root_under a' d
  refine h3.none E.whole C (by omega) ((Whole.few_upTo hr (by omega) (by omega)).sub (by omega) (by omega) (by omega)) (fun e j k1 k2 => ?_) g1 g2 g3
  rw [Whole.upTo_eq (by omega)]
  exact hz e j (by omega) (by omega)

end Verif.Ops
