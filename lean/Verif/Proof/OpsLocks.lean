import Verif.Proof.OpsExec
set_option linter.unusedSimpArgs false
set_option linter.unusedVariables false
/-! Who holds the locks of the leaves. -/
namespace Verif.Ops
open Verif.Internode (upd upd_same upd_ne)
open Verif.Perm (size get)
open Verif.Spec (Bytes)
open Verif.Tree (Leaf Cell searchKlx searchForInsert PermOK)
open Verif.Forest (Under keyIn)
open Verif.Whole (Inside isLocked Frame WOk LAct onLeaves beside raw lact onForest inIndex)
variable {V : Type} {fixed strict : Bool}

/-- An insert on the way to its leaf has locked leaf `x`. -/
def Grips (s : Whole.St V) (i L x : Nat) : Prop := (s.side L).inside i ∧ ((s.side L).ins i).grip = some x

/-- A thread has to unlock leaf `x` of layer `L`. -/
def keeps (s : Whole.St V) (i : Nat) : Ph V → Nat → Nat → Prop
  | .down L _, K, z => K = L ∧ Grips s i L z
  | .undo L _ x, K, z | .store L _ x _ _ _ _, K, z | .publish L _ x _ _, K, z | .conv L _ x, K, z | .freeze L _ x _, K, z
  | .close L x _, K, z | .drop L x _, K, z => K = L ∧ z = x
  | .part L _ x y, K, z => K = L ∧ (z = x ∨ z = y)
  | .prop L _ x y n, K, z => K = L ∧ (z = x ∧ n < 2 ∨ z = y ∧ n < 1)
  | _, _, _ => False

/-- The lock is about to be dropped. -/
def unlocking : Chain.HPc → Bool
  | .unlock _ => true
  | _ => false

/-- A split is being propagated. -/
def Ph.isProp : Ph V → Bool
  | .prop _ _ _ _ _ => true
  | _ => false

/-- What is known about the locks on the way out. -/
def LockOk (s : Whole.St V) (i : Nat) : Ph V → Prop
  | .undo L _ x => s.f.up L = true ∧ unlocking ((s.f.layer L).hold x) = true ∧ ¬ (s.side L).inside i
  | .drop L x _ => s.f.up L = true ∧ unlocking ((s.f.layer L).hold x) = true
  | .prop L _ x y n => s.f.up L = true ∧ n ≤ 2 ∧ (n < 2 → unlocking ((s.f.layer L).hold x) = true) ∧
      (n < 1 → (s.f.layer L).hold y = .newborn ∧ (s.f.layer L).live y = true)
  | _ => True

/-- Where a lookup can be in the internodes. -/
def GetPc : Index.Pc Unit → Prop
  | .idle | .done _ _ | .look _ _ | .nxt _ _ | .fail _ _ => True
  | .climb o _ | .stab o _ _ | .nk o _ _ _ | .cmp o _ _ _ _ _ | .chld o _ _ _ _ | .chk o _ _ _ _ | .chk2 o _ _ _ => ∃ t, o = .get t
  | _ => False

/-- Every lock of a leaf is one that exactly one thread has to drop. -/
structure Locks (s : St V) : Prop where
  keep : ∀ L x, s.w.f.made L = true → (s.w.f.layer L).hold x ≠ .free → ∃ i, keeps s.w i (s.ph i) L x
  only : ∀ L x i k, keeps s.w i (s.ph i) L x → keeps s.w k (s.ph k) L x → i = k
  ok : ∀ i, LockOk s.w i (s.ph i)
  idx : ∀ L x, s.w.f.made L = true → (s.w.f.layer L).live x = true → ((s.w.side L).ix.heap.node ((s.w.side L).num x)).locked = true →
    ∃ i, (s.ph i).isProp = true ∧ keeps s.w i (s.ph i) L x
  get : ∀ i d, s.op i = .get d → ∀ L, GetPc ((s.w.side L).ix.pc i)

/-- A step of thread `j` that takes it from `p` to `p'`, as far as locks are concerned. -/
structure Moves (s s' : Whole.St V) (j : Nat) (p p' : Ph V) : Prop where
  m1 : ∀ K x, s'.f.made K = true → (s'.f.layer K).hold x ≠ .free →
    keeps s' j p' K x ∨ (¬ keeps s j p K x ∧ s.f.made K = true ∧ (s.f.layer K).hold x ≠ .free)
  m2 : ∀ K x, keeps s' j p' K x → keeps s j p K x ∨ (s.f.made K = true ∧ (s.f.layer K).hold x = .free)
  m3 : ∀ K x, s.f.made K = true → (s.f.layer K).hold x ≠ .free → ¬ keeps s j p K x → (s'.f.layer K).hold x = (s.f.layer K).hold x
  m4 : LockOk s' j p'
  m5 : ∀ K x, s'.f.made K = true → (s'.f.layer K).live x = true → ((s'.side K).ix.heap.node ((s'.side K).num x)).locked = true →
    (p'.isProp = true ∧ keeps s' j p' K x) ∨ (¬ (p.isProp = true ∧ keeps s j p K x) ∧ s.f.made K = true ∧ (s.f.layer K).live x = true ∧
      ((s.side K).ix.heap.node ((s.side K).num x)).locked = true)
  m6 : ∀ K x, s.f.made K = true → (s.f.layer K).live x = true → (s'.f.layer K).live x = true

theorem unlocking_iff {h : Chain.HPc} (e : unlocking h = true) : ∃ lv, h = .unlock lv := by
  cases h <;> first | exact ⟨_, rfl⟩ | cases e

theorem inside_up {s : Whole.St V} (W : WOk s) {L i : Nat} (h : (s.side L).inside i) : s.f.up L = true := by
  cases e : s.f.up L with
  | true => rfl
  | false => obtain ⟨o, r, n, hp⟩ := h; rw [W.unused L e] at hp; cases hp

section
variable {s s' : Whole.St V} {j : Nat} {p p' : Ph V}

theorem grips_frame {i : Nat} (F : Frame s s' i) {L x : Nat} : Grips s' i L x ↔ Grips s i L x := by
  unfold Grips Whole.Side.inside; rw [F.pc L, F.ins L]

theorem keeps_frame {i : Nat} (F : Frame s s' i) {K z : Nat} : keeps s' i p K z ↔ keeps s i p K z := by
  cases p <;> first | exact Iff.rfl | (simp only [keeps, grips_frame F])

/-- A leaf that somebody has to unlock is locked. -/
theorem keeps_busy (W : WOk s) {o : Op V} {i : Nat} (h : PhOk s o i p) (hl : LockOk s i p) {K z : Nat} (hk : keeps s i p K z) :
    s.f.made K = true ∧ (s.f.layer K).hold z ≠ .free := by
  have grip : ∀ L x, Grips s i L x → s.f.made L = true ∧ (s.f.layer L).hold x ≠ .free := by
    rintro L x ⟨h1, h2⟩
    have hm := W.basic.made L (inside_up W h1)
    refine ⟨hm, fun e => ?_⟩
    have := ((W.ok L hm).grip h1 h2).2
    rw [show (s.lay L).c.hold x = .free from e] at this; cases this
  have own : ∀ d L m x, Own s d L m i x → s.f.made L = true ∧ (s.f.layer L).hold x ≠ .free := by
    intro d L m x ho
    obtain ⟨hp, hg⟩ := Whole.owns_some ho.owns
    exact grip L x ⟨hp, by rw [hg]; rfl⟩
  have unl : ∀ L x, s.f.up L = true → unlocking ((s.f.layer L).hold x) = true → s.f.made L = true ∧ (s.f.layer L).hold x ≠ .free := by
    intro L x hu h
    refine ⟨W.basic.made L hu, fun e => ?_⟩
    rw [e] at h; cases h
  cases p with
  | down L m => obtain ⟨rfl, g⟩ := hk; exact grip _ _ g
  | undo L m x => obtain ⟨rfl, rfl⟩ := hk; exact unl _ _ hl.1 hl.2.1
  | drop L x a => obtain ⟨rfl, rfl⟩ := hk; exact unl _ _ hl.1 hl.2
  | prop L m x y n =>
    obtain ⟨rfl, ⟨rfl, hn⟩ | ⟨rfl, hn⟩⟩ := hk
    · exact unl _ _ hl.1 (hl.2.2.1 hn)
    · exact ⟨W.basic.made _ hl.1, by rw [(hl.2.2.2 hn).1]; nofun⟩
  | part L m x y =>
    cases o with
    | get d => exact absurd h id
    | insert d v =>
      obtain ⟨ho, hn⟩ := h
      obtain ⟨rfl, rfl | rfl⟩ := hk
      · exact own _ _ _ _ ho
      · have hm := W.basic.made _ ho.place.up
        refine ⟨hm, ?_⟩
        rw [show (s.f.layer _).hold _ = _ from ((W.ok _ hm).C.new _ _ hn).2.2.2.2.1]; nofun
  | store L m x t pos off n =>
    cases o with
    | get d => exact absurd h id
    | insert d v => obtain ⟨rfl, rfl⟩ := hk; exact own _ _ _ _ h.1
  | publish L m x pos off =>
    cases o with
    | get d => exact absurd h id
    | insert d v => obtain ⟨rfl, rfl⟩ := hk; exact own _ _ _ _ h.1
  | conv L m x =>
    cases o with
    | get d => exact absurd h id
    | insert d v => obtain ⟨rfl, rfl⟩ := hk; obtain ⟨_, _, _, _, _, h1, _⟩ := h; exact own _ _ _ _ h1
  | freeze L m x sp =>
    cases o with
    | get d => exact absurd h id
    | insert d v => obtain ⟨rfl, rfl⟩ := hk; exact own _ _ _ _ h.1
  | close L x a =>
    cases o with
    | get d => exact absurd h id
    | insert d v => obtain ⟨rfl, rfl⟩ := hk; obtain ⟨⟨m, h1⟩, _⟩ := h; exact own _ _ _ _ h1
  | _ => exact absurd hk id

/-- A thread that stays where it is, as far as locks are concerned, and changes nothing. -/
theorem Moves.none (h1 : ∀ K x, keeps s j p' K x ↔ keeps s j p K x) (h2 : p'.isProp = p.isProp) (h3 : LockOk s j p') : Moves s s j p p' := by
  refine ⟨fun K x hm hh => ?_, fun K x hk => .inl ((h1 K x).1 hk), fun _ _ _ _ _ => rfl, h3, fun K x hm hl hk => ?_, fun _ _ _ h => h⟩
  · by_cases g : keeps s j p K x
    · exact .inl ((h1 K x).2 g)
    · exact .inr ⟨g, hm, hh⟩
  · by_cases g : p.isProp = true ∧ keeps s j p K x
    · exact .inl ⟨h2.trans g.1, (h1 K x).2 g.2⟩
    · exact .inr ⟨g, hm, hl, hk⟩

/-- A step in one layer. -/
theorem Moves.inLayer {L : Nat} {a : LAct V} (hu : s.f.up L = true) (W : WOk s) (h : ∀ K x, keeps s j p K x → K = L)
    (h' : ∀ K x, keeps (Whole.act fixed strict s (.inLayer L a)) j p' K x → K = L)
    (m1 : ∀ x, (lact fixed strict (L == 0) (s.lay L) a).c.hold x ≠ .free →
      keeps (Whole.act fixed strict s (.inLayer L a)) j p' L x ∨ (¬ keeps s j p L x ∧ (s.f.layer L).hold x ≠ .free))
    (m2 : ∀ x, keeps (Whole.act fixed strict s (.inLayer L a)) j p' L x → keeps s j p L x ∨ (s.f.layer L).hold x = .free)
    (m3 : ∀ x, (s.f.layer L).hold x ≠ .free → ¬ keeps s j p L x → (lact fixed strict (L == 0) (s.lay L) a).c.hold x = (s.f.layer L).hold x)
    (m4 : LockOk (Whole.act fixed strict s (.inLayer L a)) j p')
    (m5 : ∀ x, (lact fixed strict (L == 0) (s.lay L) a).c.live x = true →
      ((beside strict (L == 0) (s.lay L) a).ix.heap.node ((beside strict (L == 0) (s.lay L) a).num x)).locked = true →
      (p'.isProp = true ∧ keeps (Whole.act fixed strict s (.inLayer L a)) j p' L x) ∨ (¬ (p.isProp = true ∧ keeps s j p L x) ∧
        (s.f.layer L).live x = true ∧ ((s.side L).ix.heap.node ((s.side L).num x)).locked = true))
    (m6 : ∀ x, (s.f.layer L).live x = true → (lact fixed strict (L == 0) (s.lay L) a).c.live x = true) :
    Moves s (Whole.act fixed strict s (.inLayer L a)) j p p' := by
  have hmade := W.basic.made L hu
  refine ⟨fun K x hm hh => ?_, fun K x hk => ?_, fun K x hm hh hk => ?_, m4, fun K x hm hl hk => ?_, fun K x hm hl => ?_⟩
  · rw [post_made hu] at hm
    rw [post_layer hu] at hh
    by_cases e : K = L
    · subst e
      rw [if_pos rfl] at hh
      rcases m1 x hh with g | g
      · exact .inl g
      · exact .inr ⟨g.1, hm, g.2⟩
    · rw [if_neg e] at hh
      exact .inr ⟨fun g => e (h K x g), hm, hh⟩
  · have e := h' K x hk
    subst e
    rcases m2 x hk with g | g
    · exact .inl g
    · exact .inr ⟨hmade, g⟩
  · rw [post_layer hu]
    by_cases e : K = L
    · subst e; rw [if_pos rfl]; exact m3 x hh hk
    · rw [if_neg e]
  · rw [post_made hu] at hm
    rw [post_layer hu] at hl
    rw [post_side hu] at hk
    by_cases e : K = L
    · subst e
      rw [if_pos rfl] at hl hk
      rcases m5 x hl hk with g | g
      · exact .inl g
      · exact .inr ⟨g.1, hm, g.2⟩
    · rw [if_neg e] at hl hk
      exact .inr ⟨fun g => e (h K x g.2), hm, hl, hk⟩
  · rw [post_layer hu]
    by_cases e : K = L
    · subst e; rw [if_pos rfl]; exact m6 x hl
    · rw [if_neg e]; exact hl

/-- A step that does not touch locks. -/
theorem Moves.quiet {L : Nat} {a : LAct V} (hu : s.f.up L = true) (W : WOk s) (h : ∀ K x, keeps s j p K x → K = L)
    (h' : ∀ K x, keeps (Whole.act fixed strict s (.inLayer L a)) j p' K x → K = L)
    (hk : ∀ x, keeps (Whole.act fixed strict s (.inLayer L a)) j p' L x ↔ keeps s j p L x) (hp : p'.isProp = p.isProp)
    (m4 : LockOk (Whole.act fixed strict s (.inLayer L a)) j p')
    (hh : (lact fixed strict (L == 0) (s.lay L) a).c.hold = (s.f.layer L).hold)
    (hl : (lact fixed strict (L == 0) (s.lay L) a).c.live = (s.f.layer L).live)
    (hi : ∀ x, (s.f.layer L).live x = true →
      ((beside strict (L == 0) (s.lay L) a).ix.heap.node ((beside strict (L == 0) (s.lay L) a).num x)).locked = true →
        ((s.side L).ix.heap.node ((s.side L).num x)).locked = true) :
    Moves s (Whole.act fixed strict s (.inLayer L a)) j p p' := by
  refine .inLayer hu W h h' (fun x g => ?_) (fun x g => .inl ((hk x).1 g)) (fun x _ _ => by rw [hh]) m4 (fun x g1 g2 => ?_) (fun x g => by rw [hl]; exact g)
  · rw [hh] at g
    by_cases e : keeps s j p L x
    · exact .inl ((hk x).2 e)
    · exact .inr ⟨e, g⟩
  · rw [hl] at g1
    by_cases e : p.isProp = true ∧ keeps s j p L x
    · exact .inl ⟨hp.trans e.1, (hk x).2 e.2⟩
    · exact .inr ⟨e, g1, hi x g1 g2⟩
end

/-- The steps of the threads keep the locks in order. -/
theorem Locks.step {s s' : St V} (H : Locks s) (W : WOk s.w) (P : ∀ i, PhOk s.w (s.op i) i (s.ph i)) {j : Nat} {p' : Ph V}
    (hph : s'.ph = upd s.ph j p') (F : ∀ i, i ≠ j → Frame s.w s'.w i) (M : Moves s.w s'.w j (s.ph j) p')
    (G : ∀ i d, s'.op i = .get d → ∀ L, GetPc ((s'.w.side L).ix.pc i)) : Locks s' := by
  have busy : ∀ i K z, keeps s.w i (s.ph i) K z → s.w.f.made K = true ∧ (s.w.f.layer K).hold z ≠ .free :=
    fun i K z => keeps_busy W (P i) (H.ok i)
  have ej : s'.ph j = p' := by rw [hph]; exact upd_same _ _ _
  have en : ∀ i, i ≠ j → s'.ph i = s.ph i := fun i hi => by rw [hph]; exact upd_ne _ _ _ hi
  have ek : ∀ i, i ≠ j → ∀ K z, keeps s'.w i (s'.ph i) K z ↔ keeps s.w i (s.ph i) K z := by
    intro i hi K z; rw [en i hi]; exact keeps_frame (F i hi)
  have excl : ∀ i, i ≠ j → ∀ K z, keeps s.w i (s.ph i) K z → ¬ keeps s'.w j p' K z := by
    intro i hi K z h1 h2
    rcases M.m2 K z h2 with g | g
    · exact hi (H.only K z i j h1 g)
    · exact (busy i K z h1).2 g.2
  have same : ∀ i, i ≠ j → ∀ K z, keeps s.w i (s.ph i) K z → (s'.w.f.layer K).hold z = (s.w.f.layer K).hold z := by
    intro i hi K z h1
    refine M.m3 K z (busy i K z h1).1 (busy i K z h1).2 (fun g => hi (H.only K z i j h1 g))
  refine ⟨fun L x hm hh => ?_, fun L x i k hi hk => ?_, fun i => ?_, fun L x hm hl hk => ?_, G⟩
  · rcases M.m1 L x hm hh with g | ⟨g1, g2, g3⟩
    · exact ⟨j, by rw [ej]; exact g⟩
    · obtain ⟨i, hi⟩ := H.keep L x g2 g3
      have : i ≠ j := by rintro rfl; exact g1 hi
      exact ⟨i, (ek i this L x).2 hi⟩
  · by_cases e1 : i = j <;> by_cases e2 : k = j
    · rw [e1, e2]
    · subst e1; rw [ej] at hi; exact absurd hi (excl k e2 L x ((ek k e2 L x).1 hk))
    · subst e2; rw [ej] at hk; exact absurd hk (excl i e1 L x ((ek i e1 L x).1 hi))
    · exact H.only L x i k ((ek i e1 L x).1 hi) ((ek k e2 L x).1 hk)
  · by_cases e : i = j
    · subst e; rw [ej]; exact M.m4
    · have F := F i e
      have h := H.ok i
      have S := same i e
      rw [en i e]
      cases g : s.ph i with
      | undo L m x =>
        rw [g] at h S
        refine ⟨F.up L h.1, ?_, ?_⟩
        · rw [S L x ⟨rfl, rfl⟩]; exact h.2.1
        · unfold Whole.Side.inside; rw [F.pc L]; exact h.2.2
      | drop L x a =>
        rw [g] at h S
        exact ⟨F.up L h.1, by rw [S L x ⟨rfl, rfl⟩]; exact h.2⟩
      | prop L m x y n =>
        rw [g] at h S
        have hm := W.basic.made L h.1
        refine ⟨F.up L h.1, h.2.1, fun hn => ?_, fun hn => ⟨?_, ?_⟩⟩
        · rw [S L x ⟨rfl, .inl ⟨rfl, hn⟩⟩]; exact h.2.2.1 hn
        · rw [S L y ⟨rfl, .inr ⟨rfl, hn⟩⟩]; exact (h.2.2.2 hn).1
        · exact M.m6 L y hm (h.2.2.2 hn).2
      | _ => trivial
  · rcases M.m5 L x hm hl hk with g | ⟨g1, g2, g3, g4⟩
    · exact ⟨j, by rw [ej]; exact g⟩
    · obtain ⟨i, hi, hi'⟩ := H.idx L x g2 g3 g4
      have : i ≠ j := by rintro rfl; exact g1 ⟨hi, hi'⟩
      exact ⟨i, by rw [en i this]; exact hi, (ek i this L x).2 hi'⟩

end Verif.Ops
