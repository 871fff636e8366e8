import Verif.Proof.OpsFrame
set_option linter.unusedSimpArgs false
set_option linter.unusedVariables false
/-! Where a thread can be in its call, and that the steps of others leave it there. -/
namespace Verif.Ops
open Verif.Internode (upd upd_same upd_ne)
open Verif.Perm (size get)
open Verif.Spec (Bytes)
open Verif.Tree (Leaf Cell searchKlx)
open Verif.Forest (Under)
open Verif.Whole (Inside isLocked Frame WOk)
variable {V : Type} {fixed strict : Bool}

/-- No lookup is under way. -/
def Quiet : Chain.CPc V → Prop
  | .idle | .done _ _ _ => True
  | _ => False

/-- The thread is not in layer `L`. -/
structure Home (s : Whole.St V) (L i : Nat) : Prop where
  out : ¬ Inside s L i
  rd : s.f.made L = true → Quiet ((s.f.layer L).rd i)

/-- The key `d`, shifted `m` times, belongs into layer `L`. -/
structure Where (s : Whole.St V) (d : Bytes) (L m : Nat) : Prop where
  up : s.f.up L = true
  under : Under (s.f.pre L) d
  len : (s.f.pre L).length = 8 * m

/-- The key of an insert in a layer. -/
abbrev kat (d : Bytes) (m : Nat) : Key := Key.shiftTimes m (Key.mk' d)

/-- An insert of `d` is in layer `L` and nowhere else. -/
structure Here (s : Whole.St V) (d : Bytes) (L m i : Nat) : Prop where
  place : Where s d L m
  away : ∀ z, z ≠ L → Home s z i
  rd : Quiet ((s.f.layer L).rd i)
  inside : Inside s L i
  key : (s.side L).key i = kat d m
  op : ((s.side L).ix.pc i).op = some (.insert (kat d m).ikey ())
  look : ∀ o' n, (s.side L).ix.pc i ≠ .look o' n

/-- It owns leaf `x`. -/
structure Own (s : Whole.St V) (d : Bytes) (L m i x : Nat) : Prop extends Here s d L m i where
  owns : (s.side L).owns i = some x

/-- There is room for the key `k` before position `pos` of a leaf and the key is not there. -/
structure Gap (b : Leaf V) (k : Key) (pos : Nat) : Prop where
  le : pos ≤ size 5 b.perm
  left : ∀ j, j < pos → b.ikey (get 5 b.perm j) ≤ k.ikey
  right : ∀ j, j < size 5 b.perm → pos ≤ j → k.ikey ≤ b.ikey (get 5 b.perm j)
  new : ∀ j, j < size 5 b.perm → ¬ (b.ikey (get 5 b.perm j) = k.ikey ∧ Chain.cls (b.klx (get 5 b.perm j)) = Chain.cls (searchKlx k))

/-- What is known about an insert of `d` and `v` in each part of the call. -/
def PutOk (s : Whole.St V) (d : Bytes) (v : V) (i : Nat) : Ph V → Prop
  | .idle | .ret _ | .count => ∀ L, Home s L i
  | .err => False
  | .enter L m => (∀ z, Home s z i) ∧ Where s d L m
  | .down L m => Here s d L m i ∧ ∀ x, (s.side L).owns i = some x → isLocked ((s.f.layer L).hold x) = true
  | .read _ _ => False
  | .store L m x t pos off n => Own s d L m i x ∧ isLocked ((s.f.layer L).hold x) = true ∧
      Gap ((s.f.layer L).leaf x).b (kat d m) pos ∧ off < 24 - size 5 ((s.f.layer L).leaf x).b.perm ∧
      t = get 5 ((s.f.layer L).leaf x).b.perm (23 - off) ∧ n ≤ 3 ∧
      (1 ≤ n → ((s.f.layer L).leaf x).b.ikey t = (kat d m).ikey) ∧ (2 ≤ n → ((s.f.layer L).leaf x).b.cell t = .val v) ∧
      (3 ≤ n → ((s.f.layer L).leaf x).b.klx t = searchKlx (kat d m)) ∧
      (n = 0 → t = 0 → x = 1 ∨ (kat d m).ikey = ((s.f.layer L).leaf x).b.ikey 0)
  | .publish L m x pos off => Own s d L m i x ∧ isLocked ((s.f.layer L).hold x) = true ∧
      Gap ((s.f.layer L).leaf x).b (kat d m) pos ∧ off < 24 - size 5 ((s.f.layer L).leaf x).b.perm ∧
      Race.SlotIs ((s.f.layer L).leaf x).b (get 5 ((s.f.layer L).leaf x).b.perm (23 - off)) (kat d m) ∧
      ((s.f.layer L).leaf x).b.cell (get 5 ((s.f.layer L).leaf x).b.perm (23 - off)) = .val v
  | .conv L m x => ∃ lv t q st j, Own s d L m i x ∧ (s.f.layer L).hold x = .conv lv t q st ∧ st ≤ 4 ∧ s.f.made q = true ∧
      s.f.job q = some j ∧ j.key = d ∧ j.val = v
  | .freeze L m x sp => Own s d L m i x ∧ (∃ lv, (s.f.layer L).hold x = .marked lv) ∧ 0 < sp ∧
      sp < size 5 ((s.f.layer L).leaf x).b.perm
  | .part L m x y => Own s d L m i x ∧ ((s.f.layer L).hold x).new = some y
  | .prop L m _ _ _ | .undo L m _ => Here s d L m i ∧ (s.side L).owns i = none
  | .close L x a => (∃ m, Own s d L m i x) ∧ isLocked ((s.f.layer L).hold x) = true ∧ (a = .count ∨ ∃ r, a = .ret r)
  | .drop _ _ a => (∀ z, Home s z i) ∧ (∀ q m, a = .layer q m → Where s d q m) ∧ a ≠ .err

/-- What is known about a lookup in each part of the call. -/
def GetOk (s : Whole.St V) (i : Nat) : Ph V → Prop
  | .idle | .ret _ | .enter _ _ => ∀ L, Home s L i
  | .err => True
  | .down L _ => (∀ z, z ≠ L → Home s z i) ∧ (s.f.made L = true → Quiet ((s.f.layer L).rd i))
  | .read L _ => (∀ z, z ≠ L → Home s z i) ∧ ¬ Inside s L i
  | _ => False

/-- What is known about a thread in each part of its call. -/
def PhOk (s : Whole.St V) : Op V → Nat → Ph V → Prop
  | .get _, i, p => GetOk s i p
  | .insert d v, i, p => PutOk s d v i p

section
variable {s s' : Whole.St V} {d : Bytes} {i : Nat}

theorem Inside.frame (F : Frame s s' i) {L : Nat} : Inside s' L i ↔ Inside s L i := by
  unfold Inside; rw [F.pc L]

theorem Home.frame (F : Frame s s' i) {L : Nat} (h : Home s L i) : Home s' L i := by
  refine ⟨fun g => h.out ((Inside.frame F).1 g), fun g => ?_⟩
  cases e : s.f.made L with
  | true => rw [F.rd L e]; exact h.rd e
  | false => rw [F.new L e g]; trivial

theorem owns_frame (F : Frame s s' i) (L : Nat) : (s'.side L).owns i = (s.side L).owns i := by
  unfold Whole.Side.owns; rw [F.pc L, F.ins L]

theorem Where.frame (W : WOk s) (F : Frame s s' i) {L m : Nat} (h : Where s d L m) : Where s' d L m := by
  have hm := W.basic.made L h.up
  exact ⟨F.up L h.up, by rw [F.pre L hm]; exact h.under, by rw [F.pre L hm]; exact h.len⟩

theorem Here.frame (W : WOk s) (F : Frame s s' i) {L m : Nat} (h : Here s d L m i) : Here s' d L m i := by
  refine ⟨h.place.frame W F, fun z hz => (h.away z hz).frame F, ?_, (Inside.frame F).2 h.inside, by rw [F.key L]; exact h.key, by rw [F.pc L]; exact h.op,
    by rw [F.pc L]; exact h.look⟩
  rw [F.rd L (W.basic.made L h.place.up)]; exact h.rd

theorem Own.frame (W : WOk s) (F : Frame s s' i) {L m x : Nat} (h : Own s d L m i x) : Own s' d L m i x :=
  ⟨h.toHere.frame W F, by rw [owns_frame F]; exact h.owns⟩

theorem Own.leaf (W : WOk s) (F : Frame s s' i) {L m x : Nat} (h : Own s d L m i x) :
    (s'.f.layer L).leaf x = (s.f.layer L).leaf x ∧ (s'.f.layer L).hold x = (s.f.layer L).hold x :=
  F.own L x (W.basic.made L h.place.up) h.owns

theorem PutOk.frame (W : WOk s) (F : Frame s s' i) {v : V} {p : Ph V} (h : PutOk s d v i p) : PutOk s' d v i p := by
  cases p with
  | idle => exact fun L => (h L).frame F
  | ret r => exact fun L => (h L).frame F
  | count => exact fun L => (h L).frame F
  | err => trivial
  | enter L m => exact ⟨fun L => (h.1 L).frame F, h.2.frame W F⟩
  | down L m =>
    refine ⟨h.1.frame W F, fun x e => ?_⟩
    rw [owns_frame F] at e
    rw [(F.own L x (W.basic.made L h.1.place.up) e).2]
    exact h.2 x e
  | read L m => exact h
  | store L m x t pos off n =>
    obtain ⟨h1, h2⟩ := h
    obtain ⟨e1, e2⟩ := h1.leaf W F
    exact ⟨h1.frame W F, by rw [e1, e2]; exact h2⟩
  | publish L m x pos off =>
    obtain ⟨h1, h2⟩ := h
    obtain ⟨e1, e2⟩ := h1.leaf W F
    exact ⟨h1.frame W F, by rw [e1, e2]; exact h2⟩
  | conv L m x =>
    obtain ⟨lv, t, q, st, j, h1, h2, h3, h4, h5, h6, h7⟩ := h
    obtain ⟨e1, e2⟩ := h1.leaf W F
    exact ⟨lv, t, q, st, j, h1.frame W F, by rw [e2]; exact h2, h3, F.made q h4, by rw [F.job q h4]; exact h5, h6, h7⟩
  | freeze L m x sp =>
    obtain ⟨h1, h2⟩ := h
    obtain ⟨e1, e2⟩ := h1.leaf W F
    exact ⟨h1.frame W F, by rw [e1, e2]; exact h2⟩
  | part L m x y =>
    obtain ⟨h1, h2⟩ := h
    obtain ⟨e1, e2⟩ := h1.leaf W F
    exact ⟨h1.frame W F, by rw [e2]; exact h2⟩
  | prop L m x y n => exact ⟨h.1.frame W F, by rw [owns_frame F]; exact h.2⟩
  | undo L m x => exact ⟨h.1.frame W F, by rw [owns_frame F]; exact h.2⟩
  | close L x a =>
    obtain ⟨⟨m, h1⟩, h2⟩ := h
    obtain ⟨e1, e2⟩ := h1.leaf W F
    exact ⟨⟨m, h1.frame W F⟩, by rw [e2]; exact h2⟩
  | drop L x a => exact ⟨fun L => (h.1 L).frame F, fun q m e => (h.2.1 q m e).frame W F, h.2.2⟩

theorem GetOk.frame (F : Frame s s' i) {p : Ph V} (h : GetOk s i p) : GetOk s' i p := by
  cases p with
  | idle => exact fun L => (h L).frame F
  | ret r => exact fun L => (h L).frame F
  | enter L m => exact fun L => (h L).frame F
  | err => trivial
  | down L m =>
    refine ⟨fun z hz => (h.1 z hz).frame F, fun g => ?_⟩
    cases e : s.f.made L with
    | true => rw [F.rd L e]; exact h.2 e
    | false => rw [F.new L e g]; trivial
  | read L m => exact ⟨fun z hz => (h.1 z hz).frame F, fun g => h.2 ((Inside.frame F).1 g)⟩
  | _ => exact h

/-- The steps of others change nothing that a thread relies on. -/
theorem PhOk.frame (W : WOk s) (F : Frame s s' i) {o : Op V} {p : Ph V} (h : PhOk s o i p) : PhOk s' o i p := by
  cases o with
  | get d => exact GetOk.frame F h
  | insert d v => exact PutOk.frame W F h
end

end Verif.Ops
