import Verif.Proof.OpsLocks2
set_option linter.unusedSimpArgs false
set_option linter.unusedVariables false
/-! The locks of the leaves in an execution of calls. -/
namespace Verif.Ops
open Verif.Internode (upd upd_same upd_ne)
open Verif.Perm (size get)
open Verif.Spec (Bytes)
open Verif.Tree (Leaf Cell searchKlx searchForInsert PermOK)
open Verif.Forest (Under keyIn)
open Verif.Whole (Inside isLocked Frame WOk LAct onLeaves beside raw lact onForest inIndex target)
variable {V : Type} {fixed strict : Bool}

section
variable {s : Whole.St V} {d : Bytes} {v : V} {i L m x : Nat}

/-- Nothing is done by a thread that has nothing to unlock. -/
theorem moves_idle {p p' : Ph V} (h : ∀ K z, ¬ keeps s i p K z) (h' : ∀ K z, ¬ keeps s i p' K z) (h3 : LockOk s i p') : Moves s s i p p' :=
  ⟨fun K x hm hh => .inr ⟨h K x, hm, hh⟩, fun K x hk => absurd hk (h' K x), fun _ _ _ _ _ => rfl, h3,
    fun K x hm hl hk => .inr ⟨fun g => h K x g.2, hm, hl, hk⟩, fun _ _ _ h => h⟩

/-- The lock is dropped. -/
theorem moves_unlock (W : WOk s) (hu : s.f.up L = true) (hl : unlocking ((s.f.layer L).hold x) = true)
    (hn : ((s.side L).ix.heap.node ((s.side L).num x)).locked = false) {p p' : Ph V} (h : ∀ K z, keeps s i p K z → K = L)
    (hk : ∀ K z, keeps (Whole.act fixed strict s (.inLayer L (.unlock x))) i p' K z ↔ keeps s i p K z ∧ z ≠ x) (ht : keeps s i p L x)
    (hp : p.isProp = true → p'.isProp = true) (m4 : LockOk (Whole.act fixed strict s (.inLayer L (.unlock x))) i p') :
    Moves s (Whole.act fixed strict s (.inLayer L (.unlock x))) i p p' := by
  obtain ⟨lv, eh⟩ := unlocking_iff hl
  have e : onLeaves (s.lay L) (.unlock x) = some (.hold x) := by
    simp only [onLeaves]
    rw [show (s.lay L).c.hold x = _ from eh]
    simp only
    rw [show (s.lay L).s = s.side L from rfl, if_pos hn]
  refine .free hu W e rfl h hk ?_ hn ht hp m4 ?_ ⟨rfl, rfl⟩
  · simp only [raw, Chain.act, Chain.hstep, target, eh, upd_same]
  · simp only [raw, Chain.act, Chain.hstep, eh]

/-- A step of the split. -/
theorem moves_part (K : Know s) {y : Nat} (h : PutOk s d v i (.part L m x y)) :
    Moves s (Whole.act fixed strict s (.inLayer L (.hold i))) i (.part L m x y)
        (match (s.f.layer L).hold x with
          | .publish _ _ => .prop L m x y 0
          | _ => .part L m x y) := by
  obtain ⟨ho, hn⟩ := h
  have e := hold_on ho
  have hu := ho.place.up
  have hm := K.ok.basic.made L hu
  have C := K.ok.ok L hm
  have hL : ∀ K z, keeps s i (.part L m x y) K z → K = L := fun K z g => g.1
  have still : (∀ lv y', (s.f.layer L).hold x ≠ .publish lv y') → beside strict (L == 0) (s.lay L) (.hold i) = s.side L := by
    intro g
    simp only [beside]
    rw [show (s.lay L).s.owns i = _ from ho.owns]
    simp only
    split
    · rename_i g'; exact absurd g' (g _ _)
    · rfl
  have go : (∀ lv y', (s.f.layer L).hold x ≠ .publish lv y') → (raw fixed (s.f.layer L) (.hold x)).live = (s.f.layer L).live →
      Moves s (Whole.act fixed strict s (.inLayer L (.hold i))) i (.part L m x y) (.part L m x y) := by
    intro g hl
    exact .work hu K.ok e rfl hL (fun _ _ => Iff.rfl) ⟨rfl, .inl rfl⟩ rfl trivial hl (by rw [still g]; exact ⟨rfl, rfl⟩)
  cases eh : (s.f.layer L).hold x with
  | publish lv y' =>
    rw [eh] at hn
    have ey : y' = y := Option.some.inj hn
    subst ey
    have N := C.C.new x y' (by rw [show (s.lay L).c.hold x = _ from eh]; rfl)
    obtain ⟨n1, n2, n3, n4, n5, _⟩ := N
    obtain ⟨o, r, n, g1, g2⟩ := owns_upd_climb ho.owns
    have eb : beside strict (L == 0) (s.lay L) (.hold i) = Whole.link (L == 0) (s.side L) i x y' ((s.f.layer L).leaf y').lo := by
      simp only [beside]
      rw [show (s.lay L).s.owns i = _ from ho.owns]
      simp only
      rw [show (s.lay L).c.hold x = _ from eh]
      rfl
    have E : (lact fixed strict (L == 0) (s.lay L) (.hold i)).c = { s.f.layer L with
        leaf := upd (s.f.layer L).leaf x { (s.f.layer L).leaf x with nx := y', mark := false }, hold := upd (s.f.layer L).hold x (.unlock lv),
        live := upd (s.f.layer L).live y' true } := by
      unfold lact; rw [e]
      show Chain.hstep (s.f.layer L) x = _
      unfold Chain.hstep
      rw [eh]
    have hyx : y' ≠ x := by rintro rfl; rw [n1] at n3; cases n3
    refine .inLayer hu K.ok hL (fun _ _ g => g.1) (fun z g => ?_) (fun z g => ?_) (fun z _ g => ?_) ⟨post_up hu _ hu, by omega, fun _ => ?_, fun _ => ?_⟩
      (fun z g1' g2' => ?_) (fun z g => ?_)
    · rw [E] at g
      have g : upd (s.f.layer L).hold x (.unlock lv) z ≠ .free := g
      by_cases ez : z = x
      · exact .inl ⟨rfl, .inl ⟨ez, by omega⟩⟩
      · by_cases ey : z = y'
        · exact .inl ⟨rfl, .inr ⟨ey, by omega⟩⟩
        · rw [upd_ne _ _ _ ez] at g
          exact .inr ⟨fun k => k.2.elim ez ey, g⟩
    · left
      rcases g.2 with ⟨g, _⟩ | ⟨g, _⟩
      · exact ⟨rfl, .inl g⟩
      · exact ⟨rfl, .inr g⟩
    · rw [E]
      exact upd_ne _ _ _ (fun ez => g ⟨rfl, .inl ez⟩)
    · rw [post_layer_same hu, E]
      show unlocking (upd (s.f.layer L).hold x (.unlock lv) x) = true
      rw [upd_same]; rfl
    · rw [post_layer_same hu, E]
      refine ⟨?_, upd_same _ _ _⟩
      show upd (s.f.layer L).hold x (.unlock lv) y' = _
      rw [upd_ne _ _ _ hyx]; exact n5
    · rw [E] at g1'
      have g1' : upd (s.f.layer L).live y' true z = true := g1'
      by_cases ez : z = x
      · exact .inl ⟨rfl, rfl, .inl ⟨ez, by omega⟩⟩
      · by_cases ey : z = y'
        · exact .inl ⟨rfl, rfl, .inr ⟨ey, by omega⟩⟩
        · right
          rw [upd_ne _ _ _ ey] at g1'
          refine ⟨(fun k => nomatch k.1), g1', ?_⟩
          obtain ⟨u1, u2, u3⟩ := C.up z g1'
          obtain ⟨w1, w2, w3⟩ := C.up x n1
          rw [eb] at g2'
          unfold Whole.link at g2'
          rw [g1] at g2'
          have g2' : ((Whole.splitAt (s.side L).ix.heap ((s.side L).num x) ((s.f.layer L).leaf y').lo).node (upd (s.side L).num y' (s.side L).ix.heap.fresh z)).locked = true := g2'
          rw [upd_ne _ _ _ ey] at g2'
          have nf : (s.side L).num z ≠ (s.side L).ix.heap.fresh := by
            have := u1.2
            have : (s.side L).num z < (s.side L).ix.heap.fresh := this
            omega
          have nx : (s.side L).num z ≠ (s.side L).num x := by
            intro g
            have u3 : (s.side L).leaf ((s.side L).num z) = z := u3
            have w3 : (s.side L).leaf ((s.side L).num x) = x := w3
            rw [g, w3] at u3
            exact ez u3.symm
          unfold Whole.splitAt at g2'
          simp only at g2'
          rw [upd_ne _ _ _ nf, upd_ne _ _ _ nx] at g2'
          exact g2'
    · rw [E]
      show upd (s.f.layer L).live y' true z = true
      by_cases ey : z = y'
      · rw [ey, upd_same]
      · rw [upd_ne _ _ _ ey]; exact g
  | take lv raw' sp y' j =>
    refine go (by rw [eh]; nofun) ?_
    simp only [raw, Chain.act, Chain.hstep, eh]; split <;> rfl
  | clear lv raw' sp y' j =>
    refine go (by rw [eh]; nofun) ?_
    simp only [raw, Chain.act, Chain.hstep, eh]; split <;> rfl
  | unfreeze lv raw' sp y' => exact go (by rw [eh]; nofun) (by simp only [raw, Chain.act, Chain.hstep, eh])
  | mark lv y' => exact go (by rw [eh]; nofun) (by simp only [raw, Chain.act, Chain.hstep, eh])
  | setNext lv y' => exact go (by rw [eh]; nofun) (by simp only [raw, Chain.act, Chain.hstep, eh])
  | _ => rw [eh] at hn; cases hn

/-- The permutation is frozen. -/
theorem moves_freeze (K : Know s) {sp y : Nat} (h : PutOk s d v i (.freeze L m x sp))
    (g : (s.f.layer L).used y = false ∧ y ≠ 0 ∧
      ((s.f.layer L).leaf x).b.ikey (get 5 ((s.f.layer L).leaf x).b.perm (sp - 1)) < ((s.f.layer L).leaf x).b.ikey (get 5 ((s.f.layer L).leaf x).b.perm sp)) :
    Moves s (Whole.act fixed strict s (.inLayer L (.freeze i sp y))) i (.freeze L m x sp) (.part L m x y) := by
  obtain ⟨ho, ⟨lv, eh⟩, h0, h1⟩ := h
  have hu := ho.place.up
  have C := K.ok.ok L (K.ok.basic.made L hu)
  have e : onLeaves (s.lay L) (.freeze i sp y) = some (.freeze x sp y) := by
    simp only [onLeaves]; rw [show (s.lay L).s.owns i = _ from ho.owns]; rfl
  have E : ∃ q, (lact fixed strict (L == 0) (s.lay L) (.freeze i sp y)).c.hold = upd (upd (s.f.layer L).hold y .newborn) x q ∧
      (lact fixed strict (L == 0) (s.lay L) (.freeze i sp y)).c.live = (s.f.layer L).live := by
    unfold lact; rw [e]
    simp only
    show ∃ q, (Chain.act fixed (s.f.layer L) (.freeze x sp y)).hold = _ ∧ (Chain.act fixed (s.f.layer L) (.freeze x sp y)).live = _
    simp only [Chain.act, eh]
    rw [if_pos ⟨h0, h1, g.2.2, g.1, g.2.1⟩]
    exact ⟨_, rfl, rfl⟩
  obtain ⟨q, E, El⟩ := E
  have fy : (s.f.layer L).hold y = .free := by
    by_cases k : (s.f.layer L).hold y = .free
    · exact k
    · have := C.C.busy y k
      rw [show (s.lay L).c.used y = false from g.1] at this; cases this
  refine .inLayer hu K.ok (fun _ _ g => g.1) (fun _ _ g => g.1) (fun z g => ?_) (fun z g => ?_) (fun z g1 g2 => ?_) trivial (fun z g1 g2 => ?_) (fun z g => by rw [El]; exact g)
  · rw [E] at g
    by_cases ez : z = x
    · exact .inl ⟨rfl, .inl ez⟩
    · by_cases ey : z = y
      · exact .inl ⟨rfl, .inr ey⟩
      · rw [upd_ne _ _ _ ez, upd_ne _ _ _ ey] at g
        exact .inr ⟨fun k => ez k.2, g⟩
  · rcases g.2 with rfl | rfl
    · exact .inl ⟨rfl, rfl⟩
    · exact .inr fy
  · rw [E, upd_ne _ _ _ (fun ez => g2 ⟨rfl, ez⟩), upd_ne _ _ _ (fun ey => g1 (by rw [ey]; exact fy))]
  · rw [El] at g1
    exact .inr ⟨(fun k => nomatch k.1), g1, g2⟩

/-- A step of the propagation. -/
theorem moves_spread (K : Know s) {y n : Nat} (h : PutOk s d v i (.prop L m x y n)) (hl : LockOk s i (.prop L m x y n))
    (hyx : n < 1 → y ≠ x) (W' : WOk (after fixed strict s (spread s L m i x y n).1)) :
    Moves s (after fixed strict s (spread s L m i x y n).1) i (.prop L m x y n) (spread s L m i x y n).2 := by
  obtain ⟨hh, ho⟩ := h
  have hu := hh.place.up
  have hL : ∀ K z, keeps s i (.prop L m x y n) K z → K = L := fun K z g => g.1
  obtain ⟨l1, l2, l3, l4⟩ := hl
  unfold spread at W' ⊢
  simp only at W' ⊢
  split
  · rename_i g
    obtain ⟨rfl, g⟩ := g
    have hyx := hyx (by omega)
    obtain ⟨q1, q2⟩ := l4 (by omega)
    have e : onLeaves (s.lay L) (.release y) = some (.release y) := by
      simp only [onLeaves]; exact if_pos g
    refine .free hu K.ok e rfl hL (fun K z => ?_) ?_ g ⟨rfl, .inr ⟨rfl, by omega⟩⟩ (fun _ => rfl) ⟨post_up hu _ hu, by omega, fun _ => ?_, fun g => by omega⟩ ?_ ⟨rfl, rfl⟩
    · show (K = L ∧ (z = x ∧ 1 < 2 ∨ z = y ∧ 1 < 1)) ↔ (K = L ∧ (z = x ∧ 0 < 2 ∨ z = y ∧ 0 < 1)) ∧ z ≠ y
      constructor
      · rintro ⟨rfl, ⟨rfl, _⟩ | ⟨_, g⟩⟩
        · exact ⟨⟨rfl, .inl ⟨rfl, by omega⟩⟩, fun g => hyx g.symm⟩
        · omega
      · rintro ⟨⟨rfl, ⟨rfl, _⟩ | ⟨rfl, _⟩⟩, g'⟩
        · exact ⟨rfl, .inl ⟨rfl, by omega⟩⟩
        · exact absurd rfl g'
    · simp only [raw, Chain.act, target, q1, q2, if_true, upd_same]
    · show unlocking (((Whole.act fixed strict s (.inLayer L (.release y))).f.layer L).hold x) = true
      rw [post_layer_same hu]
      unfold lact; rw [e]
      show unlocking ((raw fixed (s.f.layer L) (.release y)).hold x) = true
      rw [raw_hold fixed _ rfl (show x ≠ y from hyx.symm)]
      exact l3 (by omega)
    · simp only [raw, Chain.act, q1, q2, if_true]
  · split
    · rename_i g
      obtain ⟨rfl, g⟩ := g
      refine moves_unlock K.ok hu (l3 (by omega)) g hL (fun K z => ?_) ⟨rfl, .inl ⟨rfl, by omega⟩⟩ (fun _ => rfl) ⟨post_up hu _ hu, by omega, fun g => by omega, fun g => by omega⟩
      show (K = L ∧ (z = x ∧ 2 < 2 ∨ z = y ∧ 2 < 1)) ↔ (K = L ∧ (z = x ∧ 1 < 2 ∨ z = y ∧ 1 < 1)) ∧ z ≠ x
      constructor
      · rintro ⟨_, ⟨_, g⟩ | ⟨_, g⟩⟩ <;> omega
      · rintro ⟨⟨_, ⟨rfl, _⟩ | ⟨_, g⟩⟩, g'⟩
        · exact absurd rfl g'
        · omega
    · split
      · rename_i hp
        split
        · rename_i hn
          subst hn
          refine moves_idle (fun K z g => ?_) (fun K z g => ?_) trivial
          · rcases g.2 with ⟨_, g⟩ | ⟨_, g⟩ <;> omega
          · exact not_grips (by rw [hp]; nofun) g.2
        · exact .none (fun _ _ => Iff.rfl) rfl ⟨l1, l2, l3, l4⟩
      · rename_i hp; exact absurd hp (K.fine _ _ _ _)
      · rename_i g1 g2 _ _ _
        simp only [if_neg g1, if_neg g2] at W'
        by_cases hi : inIndex ((s.side L).ix.pc i) = true
        · have W' : WOk (Whole.act fixed strict s (.inLayer L (.walk i))) := by
            exact W'
          obtain ⟨h1, h2⟩ := lact_still (s.lay L) fixed strict (L == 0) (a := .walk i) rfl
          refine moves_walk K.ok hu hi W' hL (fun _ _ g => g.1) (fun _ => Iff.rfl) rfl ⟨post_up hu _ hu, l2, fun g => ?_, fun g => ?_⟩
          · rw [post_layer_same hu, h1]; exact l3 g
          · rw [post_layer_same hu, h1, h2]; exact l4 g
        · have e : Whole.act fixed strict s (.inLayer L (.walk i)) = Whole.act fixed strict s (.inLayer L (.walk i)) := rfl
          have eb : beside strict (L == 0) (s.lay L) (.walk i) = s.side L := by simp only [beside]; exact if_neg hi
          obtain ⟨h1, h2⟩ := lact_still (s.lay L) fixed strict (L == 0) (a := .walk i) rfl
          refine .quiet hu K.ok hL (fun _ _ g => g.1) (fun _ => Iff.rfl) rfl ⟨post_up hu _ hu, l2, fun g => ?_, fun g => ?_⟩ h1 h2 (fun z _ g => by rw [eb] at g; exact g)
          · rw [post_layer_same hu, h1]; exact l3 g
          · rw [post_layer_same hu, h1, h2]; exact l4 g
end

end Verif.Ops
