import Verif.Proof.OpsInv
import Verif.Prop.Forest
set_option linter.unusedSimpArgs false
set_option linter.unusedVariables false
/-! What single steps do to the thread that makes them. -/
namespace Verif.Ops
open Verif.Internode (upd upd_same upd_ne)
open Verif.Perm (size get)
open Verif.Spec (Bytes)
open Verif.Tree (Leaf Cell searchKlx)
open Verif.Forest (Under keyIn)
open Verif.Whole (Inside isLocked Frame WOk LAct onLeaves beside raw lact onForest)
variable {V : Type} {fixed strict : Bool}

/-- What a step stores for the key `d`. -/
def wr (s : Whole.St V) (a : Option (Whole.Act V)) (d : Bytes) : Option V := (a.bind (onForest s)).bind (Forest.written s.f d)

/-- Steps that store nothing for any key. -/
def mute : LAct V → Bool
  | .publish _ _ _ | .update _ _ _ | .hold _ => false
  | _ => true

theorem wr_mute (s : Whole.St V) (L : Nat) {a : LAct V} (h : mute a = true) (d : Bytes) : wr s (some (.inLayer L a)) d = none := by
  show (onForest s (.inLayer L a)).bind _ = none
  simp only [onForest]
  split
  · cases e : onLeaves (s.lay L) a with
    | none => rfl
    | some b =>
      show Forest.written s.f d (.inLayer L b) = none
      have : Chain.written (s.f.layer L) (keyIn (s.f.pre L) d) b = none := by
        cases a with
        | publish => cases h
        | update => cases h
        | hold => cases h
        | call => cases e
        | walk => cases e
        | read i => cases e; rfl
        | unlock x =>
          simp only [onLeaves] at e
          split at e
          · rename_i lv g
            split at e
            · cases e
              have g : (s.f.layer L).hold x = .unlock lv := g
              simp only [Chain.written, g]
            · cases e
          · cases e
        | _ =>
          simp only [onLeaves] at e
          (repeat' split at e) <;> simp at e
          all_goals first | (subst e; rfl) | (obtain ⟨_, _, e'⟩ := e; subst e'; rfl)
      simp only [Forest.written, this]
      split <;> rfl
  · rfl

theorem wr_none (s : Whole.St V) (d : Bytes) : wr s none d = none := rfl

theorem wr_convert (s : Whole.St V) (L i t : Nat) (d' : Bytes) (v : V) (qs : List Nat) (d : Bytes) : wr s (some (.convert L i t d' v qs)) d = none := by
  show (onForest s (.convert L i t d' v qs)).bind _ = none
  simp only [onForest]
  (repeat' split) <;> rfl

section
variable {s : Whole.St V} {L : Nat} (hu : s.f.up L = true) (a : LAct V)
include hu

theorem post_side (z : Nat) : (Whole.act fixed strict s (.inLayer L a)).side z = if z = L then beside strict (L == 0) (s.lay L) a else s.side z := by
  simp only [Whole.act, if_pos hu]; rfl

theorem post_side_same : (Whole.act fixed strict s (.inLayer L a)).side L = beside strict (L == 0) (s.lay L) a := by
  rw [post_side hu, if_pos rfl]

theorem post_layer (z : Nat) : (Whole.act fixed strict s (.inLayer L a)).f.layer z = if z = L then (lact fixed strict (L == 0) (s.lay L) a).c else s.f.layer z := by
  simp only [Whole.act, if_pos hu]; rfl

theorem post_layer_same : (Whole.act fixed strict s (.inLayer L a)).f.layer L = (lact fixed strict (L == 0) (s.lay L) a).c := by
  rw [post_layer hu, if_pos rfl]

theorem post_made (z : Nat) : (Whole.act fixed strict s (.inLayer L a)).f.made z = s.f.made z := by
  simp only [Whole.act, if_pos hu]

theorem post_pre (z : Nat) : (Whole.act fixed strict s (.inLayer L a)).f.pre z = s.f.pre z := by
  simp only [Whole.act, if_pos hu]

theorem post_job (z : Nat) : (Whole.act fixed strict s (.inLayer L a)).f.job z = s.f.job z := by
  simp only [Whole.act, if_pos hu]

theorem post_up {z : Nat} (h : s.f.up z = true) : (Whole.act fixed strict s (.inLayer L a)).f.up z = true := by
  simp only [Whole.act, if_pos hu, h, Bool.true_or]

theorem Home.post {z i : Nat} (hz : z ≠ L) (h : Home s z i) : Home (Whole.act fixed strict s (.inLayer L a)) z i := by
  refine ⟨fun g => h.out ?_, fun g => ?_⟩
  · unfold Inside at g ⊢; rw [post_side hu, if_neg hz] at g; exact g
  · rw [post_made hu] at g; rw [post_layer hu, if_neg hz]; exact h.rd g

theorem Where.post {d : Bytes} {z m : Nat} (h : Where s d z m) : Where (Whole.act fixed strict s (.inLayer L a)) d z m :=
  ⟨post_up hu a h.up, by rw [post_pre hu]; exact h.under, by rw [post_pre hu]; exact h.len⟩
end

theorem raw_rd {c : Chain.St V} (fixed : Bool) (b : Chain.Act V) (i : Nat) (h1 : b ≠ .read i) (h2 : ∀ x k, b ≠ .start i x k) :
    (raw fixed c b).rd i = c.rd i := by
  cases b with
  | start j x k =>
    have : i ≠ j := by rintro rfl; exact h2 _ _ rfl
    show upd c.rd j _ i = _
    rw [upd_ne _ _ _ this]
  | publish x pos off => rfl
  | lock x => rfl
  | _ => exact Whole.chain_rd fixed _ i h1 h2

/-- Steps other than those of a lookup in the leaves. -/
def notRead : LAct V → Bool
  | .enter _ | .read _ => false
  | _ => true

theorem lact_rd (l : Whole.Lay V) (fixed strict main : Bool) {a : LAct V} (h : notRead a = true) (i : Nat) :
    (lact fixed strict main l a).c.rd i = l.c.rd i := by
  unfold lact
  simp only
  cases e : onLeaves l a with
  | none => rfl
  | some b =>
    refine raw_rd fixed b i ?_ ?_
    · rintro rfl
      cases a with
      | enter => cases h
      | read => cases h
      | call => cases e
      | walk => cases e
      | _ => simp only [onLeaves] at e; (repeat' split at e) <;> simp at e
    · rintro x k rfl
      cases a with
      | enter => cases h
      | read => cases h
      | call => cases e
      | walk => cases e
      | _ => simp only [onLeaves] at e; (repeat' split at e) <;> simp at e

/-- In the internodes a call does not end. -/
theorem step_inside {main : Bool} {h : Index.Heap Unit} {c : Index.Pc Unit} (hi : Whole.inIndex c = true) (h1 : c ≠ .idle) (h2 : ∀ o x, c ≠ .done o x) :
    (Index.step strict main h c).2 ≠ .idle ∧ ∀ o x, (Index.step strict main h c).2 ≠ .done o x := by
  cases c with
  | idle => exact absurd rfl h1
  | done o x => exact absurd rfl (h2 o x)
  | look => cases hi
  | nxt => cases hi
  | adv => cases hi
  | sect => cases hi
  | stab o r p => cases o <;> simp only [Index.step] <;> (repeat' split) <;> exact ⟨nofun, nofun⟩
  | ins c p todo => cases todo <;> exact ⟨nofun, nofun⟩
  | _ => simp only [Index.step] <;> (repeat' split) <;> exact ⟨nofun, nofun⟩

/-- Only a lookup comes to the place where leaves are searched. -/
theorem step_look {main : Bool} {h : Index.Heap Unit} {c : Index.Pc Unit} (hi : Whole.inIndex c = true) {o : Index.Op Unit} {n : Nat}
    (e : (Index.step strict main h c).2 = .look o n) : ∃ t, o = .get t := by
  cases c with
  | look => cases hi
  | nxt => cases hi
  | adv => cases hi
  | sect => cases hi
  | stab o' r p =>
    cases o' with
    | get t => simp only [Index.step] at e; (repeat' split at e) <;> simp at e; exact ⟨t, e.1.symm⟩
    | insert t v => simp only [Index.step] at e; (repeat' split at e) <;> simp at e
  | ins c p todo => cases todo <;> cases e
  | idle => cases e
  | done => cases e
  | fail => cases e
  | _ => simp only [Index.step] at e; (repeat' split at e) <;> simp at e

theorem owns_upd_climb {s : Whole.Side} {i x : Nat} (h : s.owns i = some x) : ∃ o r n, s.ix.pc i = .sect o r n ∧ s.ins i = .own x := by
  obtain ⟨⟨o, r, n, h1⟩, h2⟩ := Whole.owns_some h
  exact ⟨o, r, n, h1, h2⟩

section
variable {s : Whole.St V} {d : Bytes} {L m i x : Nat}

/-- An insert stays in its layer. -/
theorem Here.post (h : Here s d L m i) {a : LAct V} (hr : notRead a = true) {s' : Whole.Side} (e : beside strict (L == 0) (s.lay L) a = s')
    (h1 : s'.ix.pc i ≠ .idle ∧ ∀ o x, s'.ix.pc i ≠ .done o x) (h2 : s'.key i = (s.side L).key i)
    (h3 : (s'.ix.pc i).op = ((s.side L).ix.pc i).op) (h4 : ∀ o' n, s'.ix.pc i ≠ .look o' n) : Here (Whole.act fixed strict s (.inLayer L a)) d L m i := by
  have hu := h.place.up
  refine ⟨h.place.post hu a, fun z hz => (h.away z hz).post hu a hz, ?_, ?_, ?_, ?_, ?_⟩
  · rw [post_layer_same hu, lact_rd _ _ _ _ hr]; exact h.rd
  · unfold Inside; rw [post_side_same hu, e]; exact h1
  · rw [post_side_same hu, e, h2]; exact h.key
  · rw [post_side_same hu, e, h3]; exact h.op
  · rw [post_side_same hu, e]; exact h4

/-- A step in the leaf alone. -/
theorem Own.post (h : Own s d L m i x) {a : LAct V} (hr : notRead a = true) (e : beside strict (L == 0) (s.lay L) a = s.side L) :
    Own (Whole.act fixed strict s (.inLayer L a)) d L m i x := by
  refine ⟨h.toHere.post hr e h.inside rfl rfl h.look, ?_⟩
  rw [post_side_same h.place.up, e]; exact h.owns

/-- What is left of the key. -/
theorem Where.keyIn (h : Where s d L m) : keyIn (s.f.pre L) d = kat d m := (Forest.shift_keyIn h.len).symm
end

/-- A slot has one key only. -/
theorem slotIs_inj {b : Leaf V} {t : Nat} {p d d' : Bytes} (ha : 8 ∣ p.length) (hd : Under p d) (hd' : Under p d') (h : Race.SlotIs b t (keyIn p d))
    (h' : Race.SlotIs b t (keyIn p d')) : d = d' := by
  rw [Forest.SlotIs.obs (Forest.obs_keyIn ha)] at h h'
  have hr : d.drop p.length = d'.drop p.length := by
    obtain ⟨h1, h2⟩ := h
    obtain ⟨h3, h4⟩ := h'
    by_cases g : 8 < (d.drop p.length).length <;> by_cases g' : 8 < (d'.drop p.length).length
    · rw [if_pos g] at h2; rw [if_pos g'] at h4
      exact Verif.Spec.eq_of_chunk_eq_long _ _ g g' (h1.symm.trans h3) (Option.some.inj (h2.2.symm.trans h4.2))
    · rw [if_pos g] at h2; rw [if_neg g'] at h4; omega
    · rw [if_neg g] at h2; rw [if_pos g'] at h4; omega
    · rw [if_neg g] at h2; rw [if_neg g'] at h4
      exact Verif.Spec.eq_of_chunk_eq_short _ _ (by omega) (h2.symm.trans h4) (h1.symm.trans h3)
  rw [← List.take_append_drop p.length d, ← List.take_append_drop p.length d', hr, hd.take, hd'.take]

end Verif.Ops
