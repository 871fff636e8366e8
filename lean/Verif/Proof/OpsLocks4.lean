import Verif.Proof.OpsLocks3
import Verif.Proof.OpsBound
import Verif.Proof.ChainMark
set_option linter.unusedSimpArgs false
set_option linter.unusedVariables false
/-! Every lock of a leaf is one that a call under way is going to drop. -/
namespace Verif.Ops
open Verif.Internode (upd upd_same upd_ne)
open Verif.Perm (size get)
open Verif.Spec (Bytes)
open Verif.Tree (Leaf Cell searchKlx searchForInsert PermOK)
open Verif.Forest (Under keyIn)
open Verif.Whole (Inside isLocked Frame WOk LAct onLeaves beside raw lact onForest inIndex target)
variable {V : Type} {fixed strict : Bool}

section
variable {s : Whole.St V} {d : Bytes} {v : V} {i L m x : Nat}

/-- A thread that has nothing to unlock makes a step that does not touch locks. -/
theorem moves_calm (W : WOk s) {a : LAct V} (hs : still a = true) (ho : outside a = true) {p p' : Ph V} (h : ∀ K z, ¬ keeps s i p K z)
    (h' : ∀ K z, ¬ keeps (Whole.act fixed strict s (.inLayer L a)) i p' K z) (hp : p'.isProp = p.isProp)
    (m4 : LockOk (Whole.act fixed strict s (.inLayer L a)) i p') : Moves s (Whole.act fixed strict s (.inLayer L a)) i p p' := by
  cases hu : s.f.up L with
  | false =>
    have e : Whole.act fixed strict s (.inLayer L a) = s := by simp only [Whole.act, hu]; rfl
    rw [e] at h' m4 ⊢
    exact moves_idle h h' m4
  | true =>
    obtain ⟨h1, h2⟩ := lact_still (s.lay L) fixed strict (L == 0) hs
    obtain ⟨h3, h4⟩ := beside_heap (s.lay L) strict (L == 0) ho
    exact .quiet hu W (fun K z g => absurd g (h K z)) (fun K z g => absurd g (h' K z)) (fun z => ⟨fun g => absurd g (h' L z), fun g => absurd g (h L z)⟩)
      hp m4 h1 h2 (fun z _ g => by rw [h3, h4] at g; exact g)

/-- A thread that stays with its leaf makes a step that does not touch locks. -/
theorem moves_stay (W : WOk s) (hu : s.f.up L = true) {a : LAct V} (hs : still a = true) (ho : outside a = true) {p p' : Ph V}
    (h : ∀ K z, keeps s i p K z → K = L)
    (hk : ∀ K z, keeps (Whole.act fixed strict s (.inLayer L a)) i p' K z ↔ keeps s i p K z) (hp : p'.isProp = p.isProp)
    (m4 : LockOk (Whole.act fixed strict s (.inLayer L a)) i p') : Moves s (Whole.act fixed strict s (.inLayer L a)) i p p' := by
  obtain ⟨h1, h2⟩ := lact_still (s.lay L) fixed strict (L == 0) hs
  obtain ⟨h3, h4⟩ := beside_heap (s.lay L) strict (L == 0) ho
  exact .quiet hu W h (fun K z g => h K z ((hk K z).1 g)) (fun z => hk L z) hp m4 h1 h2 (fun z _ g => by rw [h3, h4] at g; exact g)
end

section
variable {s : St V} {d : Bytes} {v : V} {i L m x : Nat}

/-- Nobody has locked the leaf in the internodes. -/
theorem Locks.bare (H : Locks s) (hm : s.w.f.made L = true) (hl : (s.w.f.layer L).live x = true) (hp : (s.ph i).isProp = false)
    (hk : keeps s.w i (s.ph i) L x) : ((s.w.side L).ix.heap.node ((s.w.side L).num x)).locked = false := by
  cases e : ((s.w.side L).ix.heap.node ((s.w.side L).num x)).locked with
  | false => rfl
  | true =>
    obtain ⟨k, k1, k2⟩ := H.idx L x hm hl e
    have := H.only L x i k hk k2
    subst this
    rw [hp] at k1; cases k1

/-- A step of an insert. -/
theorem put_moves (K : Know s.w) {y : Nat} {qs : List Nat} (W' : WOk (after fixed strict s.w (next s i y qs).1)) (ho : s.op i = .insert d v)
    (h : PutOk s.w d v i (s.ph i)) (H : Locks s) :
    Moves s.w (after fixed strict s.w (next s i y qs).1) i (s.ph i) (next s i y qs).2 := by
  have W := K.ok
  have ek : ∀ m, keyAt (s.op i) m = kat d m := by intro m; rw [ho]; rfl
  have hok := H.ok i
  have bare : ∀ L x, (s.ph i).isProp = false → s.w.f.up L = true → unlocking ((s.w.f.layer L).hold x) = true → keeps s.w i (s.ph i) L x →
      ((s.w.side L).ix.heap.node ((s.w.side L).num x)).locked = false := by
    intro L x h1 h2 h3 h4
    have hm := W.basic.made L h2
    obtain ⟨lv, eh⟩ := unlocking_iff h3
    exact H.bare hm ((W.ok L hm).C.own x (by rw [show (s.w.lay L).c.hold x = _ from eh]; simp) (by rw [show (s.w.lay L).c.hold x = _ from eh]; simp)) h1 h4
  unfold next at W' ⊢
  simp only at W' ⊢
  cases e : s.ph i with
  | idle => exact moves_idle (fun _ _ g => g) (fun _ _ g => g) trivial
  | count => exact moves_idle (fun _ _ g => g) (fun _ _ g => g) trivial
  | ret r => exact moves_idle (fun _ _ g => g) (fun _ _ g => g) trivial
  | err => rw [e] at h; exact absurd h id
  | read => rw [e] at h; exact absurd h id
  | enter L m =>
    rw [e] at h
    simp only
    rw [ek, ho]
    obtain ⟨hh, hw⟩ := h
    have hu := hw.up
    refine moves_calm W rfl rfl (fun _ _ g => g) (fun K z g => ?_) rfl trivial
    obtain ⟨rfl, g⟩ := g
    refine not_grips (fun o r n g => ?_) g
    rw [post_side_same hu] at g
    simp only [beside, Index.act] at g
    rcases out_cases (hh K).out with g' | ⟨o, r, g'⟩
    · rw [show (s.w.lay K).s.ix.pc i = .idle from g'] at g
      simp only at g
      rw [upd_same] at g; cases g
    · rw [show (s.w.lay K).s.ix.pc i = .done o r from g'] at g
      simp only at g
      rw [upd_same] at g; cases g
  | down L m =>
    rw [e] at h W'
    simp only at W' ⊢
    rw [ho] at W' ⊢
    obtain ⟨hh, hl⟩ := h
    have hu := hh.place.up
    unfold down at W' ⊢
    split
    · rename_i o n g; exact absurd g (hh.look _ _)
    · rename_i o r k n g
      refine moves_calm W rfl rfl (fun K z g' => ?_) (fun K z g' => ?_) rfl trivial
      · obtain ⟨rfl, g'⟩ := g'
        exact not_grips (by rw [g]; nofun) g'
      · obtain ⟨rfl, g'⟩ := g'
        have g' := g'.2
        rw [post_side_same hu] at g'
        simp only [beside] at g'
        rw [show (s.w.lay K).s.ix.pc i = _ from g] at g'
        have g' : (upd (s.w.side K).ins i (.adv k ((s.w.side K).leaf n)) i).grip = some z := g'
        rw [upd_same] at g'
        cases g'
    · rename_i o r n g
      split
      · rename_i x d' v' gx eo
        cases eo
        exact moves_decide K ⟨hh, gx⟩ (hl _ gx) qs
      · rename_i gx _
        exact moves_step W hh gx g
      · rename_i eo; cases eo
    · rename_i g; exact absurd g (K.fine _ _ _ _)
    · rename_i q1 q2 q3 q4
      split
      · rename_i hi
        simp only [if_pos hi] at W'
        have hn : ∀ K z, ¬ keeps s.w i (.down L m) K z := by
          rintro K z ⟨rfl, g⟩
          exact not_grips q3 g
        have hn' : ∀ K z, ¬ keeps (Whole.act fixed strict s.w (.inLayer L (.walk i))) i (.down L m) K z := by
          rintro K z ⟨rfl, g⟩
          refine not_grips (fun o r n g => ?_) g
          rw [post_side_same hu] at g
          simp only [beside] at g
          rw [show (s.w.lay K).s = s.w.side K from rfl, if_pos hi] at g
          simp only [Index.act] at g
          rw [upd_same] at g
          exact Index.step_sect hi g
        refine moves_walk W hu hi W' (fun K z g => absurd g (hn K z)) (fun K z g => absurd g (hn' K z))
          (fun z => ⟨fun g => absurd g (hn' L z), fun g => absurd g (hn L z)⟩) rfl trivial
      · exact .none (fun _ _ => Iff.rfl) rfl trivial
  | undo L m x =>
    rw [e] at h hok bare
    obtain ⟨k1, k2, k3⟩ := hok
    refine moves_unlock W k1 k2 (bare L x rfl k1 k2 ⟨rfl, rfl⟩) (fun K z g => g.1) (fun K z => ⟨fun g => ?_, fun g => absurd g.1.2 g.2⟩) ⟨rfl, rfl⟩ nofun trivial
    obtain ⟨rfl, g⟩ := g
    refine absurd ?_ k3
    have := g.1
    rw [post_side_same k1] at this
    exact this
  | store L m x t pos off n =>
    rw [e] at h
    simp only
    rw [ek, ho]
    simp only
    obtain ⟨ik, kl, c, sf, ea, _⟩ := assign_cases ((s.w.f.layer L).leaf x).b i t (kat d m) v n
    rw [ea]
    have hu := h.1.place.up
    split
    · exact moves_stay W hu rfl rfl (fun K z g => g.1) (fun K z => Iff.rfl) rfl trivial
    · exact moves_stay W hu rfl rfl (fun K z g => g.1) (fun K z => Iff.rfl) rfl trivial
  | publish L m x pos off =>
    rw [e] at h
    exact moves_stay W h.1.place.up rfl rfl (fun K z g => g.1) (fun K z => Iff.rfl) rfl trivial
  | conv L m x =>
    rw [e] at h
    simp only
    obtain ⟨lv, t, q, st, j, ho, eh, hst, _⟩ := h
    rw [eh]
    simp only
    have hu := ho.place.up
    have eb : beside strict (L == 0) (s.w.lay L) (.hold i) = s.w.side L := by
      simp only [beside]
      rw [show (s.w.lay L).s.owns i = _ from ho.owns]
      simp only
      rw [show (s.w.lay L).c.hold x = _ from eh]
      rfl
    have el : (raw fixed (s.w.f.layer L) (.hold x)).live = (s.w.f.layer L).live := by simp only [raw, Chain.act, Chain.hstep, eh]
    split
    · exact .work hu W (hold_on ho) rfl (fun K z g => g.1) (fun K z => Iff.rfl) ⟨rfl, rfl⟩ rfl trivial el (by rw [eb]; exact ⟨rfl, rfl⟩)
    · exact .work hu W (hold_on ho) rfl (fun K z g => g.1) (fun K z => Iff.rfl) ⟨rfl, rfl⟩ rfl trivial el (by rw [eb]; exact ⟨rfl, rfl⟩)
  | freeze L m x sp =>
    rw [e] at h
    simp only
    split
    · rename_i g; exact moves_freeze K h g
    · exact .none (fun _ _ => Iff.rfl) rfl trivial
  | part L m x z => rw [e] at h; exact moves_part K h
  | prop L m x z n =>
    rw [e] at h hok W'
    refine moves_spread K h hok (fun hn => ?_) W'
    rintro rfl
    have h1 := (hok.2.2.2 hn).1
    have h2 := hok.2.2.1 (by omega)
    rw [h1] at h2; cases h2
  | close L x a =>
    rw [e] at h
    obtain ⟨⟨m, h1⟩, h2, h3⟩ := h
    exact moves_finish W h1 h2 rfl (fun K z => Iff.rfl)
  | drop L x a =>
    rw [e] at h hok bare
    obtain ⟨k1, k2⟩ := hok
    refine moves_unlock W k1 k2 (bare L x rfl k1 k2 ⟨rfl, rfl⟩) (fun K z g => g.1) (fun K z => ⟨fun g => ?_, fun g => absurd g.1.2 g.2⟩) ⟨rfl, rfl⟩ nofun ?_
    · cases a <;> exact absurd g id
    · cases a <;> trivial

/-- A step of a lookup in the internodes. -/
theorem GetPc.step {main : Bool} {h : Index.Heap Unit} {p : Index.Pc Unit} (hp : GetPc p) (hi : inIndex p = true) : GetPc (Index.step strict main h p).2 := by
  cases p with
  | idle => trivial
  | done => trivial
  | look => cases hi
  | nxt => cases hi
  | fail => trivial
  | climb o p => obtain ⟨t, rfl⟩ := hp; simp only [Index.step]; split <;> exact ⟨_, rfl⟩
  | stab o r p =>
    obtain ⟨t, rfl⟩ := hp
    simp only [Index.step]
    split
    · exact ⟨_, rfl⟩
    · split
      · trivial
      · exact ⟨_, rfl⟩
  | nk o r p w => obtain ⟨t, rfl⟩ := hp; exact ⟨_, rfl⟩
  | cmp o r p w a b =>
    obtain ⟨t, rfl⟩ := hp
    simp only [Index.step]
    split
    · split
      · exact ⟨_, rfl⟩
      · split <;> exact ⟨_, rfl⟩
    · exact ⟨_, rfl⟩
  | chld o r p w a => obtain ⟨t, rfl⟩ := hp; simp only [Index.step]; split <;> exact ⟨_, rfl⟩
  | chk o r p w c => obtain ⟨t, rfl⟩ := hp; simp only [Index.step]; split <;> exact ⟨_, rfl⟩
  | chk2 o r p w => obtain ⟨t, rfl⟩ := hp; simp only [Index.step]; split <;> exact ⟨_, rfl⟩
  | _ => exact absurd hp id

/-- Where a lookup is after a step in a layer. -/
theorem GetPc.post {s : Whole.St V} {a : LAct V} (h : ∀ L, GetPc ((s.side L).ix.pc i)) (g : GetPc ((beside strict (L == 0) (s.lay L) a).ix.pc i)) (K : Nat) :
    GetPc (((Whole.act fixed strict s (.inLayer L a)).side K).ix.pc i) := by
  cases hu : s.f.up L with
  | false => simp only [Whole.act, hu]; exact h K
  | true =>
    rw [post_side hu]
    by_cases e : K = L
    · rw [if_pos e]; exact g
    · rw [if_neg e]; exact h K

/-- A step of a lookup. -/
theorem get_moves (W : WOk s.w) {y : Nat} {qs : List Nat} (W' : WOk (after fixed strict s.w (next s i y qs).1)) (ho : s.op i = .get d)
    (h : GetOk s.w i (s.ph i)) (H : Locks s) :
    Moves s.w (after fixed strict s.w (next s i y qs).1) i (s.ph i) (next s i y qs).2 ∧
      ∀ L, GetPc (((after fixed strict s.w (next s i y qs).1).side L).ix.pc i) := by
  have G := H.get i d ho
  have ng : ∀ (w : Whole.St V), (∀ L, GetPc ((w.side L).ix.pc i)) → ∀ L m K z, ¬ keeps w i (.down L m) K z := by
    rintro w G L m K z ⟨rfl, g⟩
    refine not_grips (fun o r n g => ?_) g
    have := G K
    rw [g] at this; exact this
  unfold next at W' ⊢
  simp only at W' ⊢
  cases e : s.ph i with
  | idle => exact ⟨moves_idle (fun _ _ g => g) (fun _ _ g => g) trivial, G⟩
  | ret r => exact ⟨moves_idle (fun _ _ g => g) (fun _ _ g => g) trivial, G⟩
  | err => exact ⟨moves_idle (fun _ _ g => g) (fun _ _ g => g) trivial, G⟩
  | enter L m =>
    rw [e] at h
    simp only
    rw [ho]
    have G' : ∀ K, GetPc (((Whole.act fixed strict s.w (.inLayer L (.call i (keyAt (Op.get d : Op V) m) false))).side K).ix.pc i) := by
      refine GetPc.post G ?_
      simp only [beside, Index.act]
      rcases out_cases (h L).out with g' | ⟨o, r, g'⟩
      · rw [show (s.w.lay L).s.ix.pc i = .idle from g']
        simp only
        rw [upd_same]; exact ⟨_, rfl⟩
      · rw [show (s.w.lay L).s.ix.pc i = .done o r from g']
        simp only
        rw [upd_same]; exact ⟨_, rfl⟩
    exact ⟨moves_calm W rfl rfl (fun _ _ g => g) (ng _ G' L m) rfl trivial, G'⟩
  | down L m =>
    rw [e] at h W'
    simp only at W' ⊢
    rw [ho] at W' ⊢
    unfold down at W' ⊢
    split
    · rename_i o n g
      refine ⟨moves_calm W rfl rfl (ng _ G L m) (fun _ _ g => g) rfl trivial, GetPc.post G ?_⟩
      simp only [beside]
      have GL := G L
      split
      · show GetPc (upd _ i _ i); rw [upd_same]; trivial
      · show GetPc (upd _ i _ i); rw [upd_same]; trivial
      · rename_i g'; rw [show (s.w.lay L).s.ix.pc i = _ from g] at g'; cases g'
      · exact GL
    · rename_i o r k n g; have := G L; rw [g] at this; exact absurd this id
    · rename_i o r n g; have := G L; rw [g] at this; exact absurd this id
    · exact ⟨moves_idle (ng _ G L m) (fun _ _ g => g) trivial, G⟩
    · rename_i q1 q2 q3 q4
      split
      · rename_i hi
        simp only [if_pos hi] at W'
        have G' : ∀ K, GetPc (((Whole.act fixed strict s.w (.inLayer L (.walk i))).side K).ix.pc i) := by
          refine GetPc.post G ?_
          simp only [beside]
          rw [show (s.w.lay L).s = s.w.side L from rfl, if_pos hi]
          simp only [Index.act]
          rw [upd_same]
          exact (G L).step hi
        refine ⟨?_, G'⟩
        cases hu : s.w.f.up L with
        | false =>
          have e : Whole.act fixed strict s.w (.inLayer L (.walk i)) = s.w := by simp only [Whole.act, hu]; rfl
          show Moves _ (Whole.act fixed strict s.w (.inLayer L (.walk i))) _ _ _
          rw [e]
          exact moves_idle (ng _ G L m) (ng _ G L m) trivial
        | true =>
          exact moves_walk W hu hi W' (fun K z g => absurd g (ng _ G L m K z)) (fun K z g => absurd g (ng _ G' L m K z))
            (fun z => ⟨fun g => absurd g (ng _ G' L m L z), fun g => absurd g (ng _ G L m L z)⟩) rfl trivial
      · exact ⟨moves_idle (ng _ G L m) (ng _ G L m) trivial, G⟩
  | read L m =>
    simp only
    split
    · rename_i k r w g
      refine ⟨moves_idle (fun _ _ g => g) (fun K z g => ?_) ?_, G⟩
      · cases r <;> exact absurd g id
      · cases r <;> trivial
    · exact ⟨moves_calm W rfl rfl (fun _ _ g => g) (fun _ _ g => g) rfl trivial, GetPc.post G (G L)⟩
  | _ => rw [e] at h; exact absurd h id
end

section
variable {τ : Nat → St V} {β : Nat → Option (Act V)} {N : Nat}

/-- In every execution of calls, every lock of a leaf is one that exactly one call under way has to drop. -/
theorem Exec.locks (E : Exec fixed strict τ β) (C : Clean strict τ β N) : ∀ n, n ≤ N → Locks (τ n)
  | 0, _ => by
    have hs := E.start.tree.leaves
    have free : ∀ L x, (τ 0).w.f.made L = true → ((τ 0).w.f.layer L).hold x = .free := by
      intro L x g
      have : L = 0 := (hs.made L).1 g
      subst this
      exact hs.root.hold x
    have none : ∀ i K z, ¬ keeps (τ 0).w i ((τ 0).ph i) K z := by
      intro i K z g; rw [E.start.idle i] at g; exact g
    refine ⟨fun L x g h => absurd (free L x g) h, fun L x i k h _ => absurd h (none i L x), fun i => by rw [E.start.idle i]; trivial, fun L x _ _ h => ?_,
      fun i d _ L => ?_⟩
    · rw [E.start.tree.side L] at h; cases h
    · rw [E.start.tree.side L]; trivial
  | n + 1, hn => by
    have H := Exec.locks E C n (by omega)
    have K := E.know C (n := n) (by omega)
    have W' := (E.know C hn).ok
    have P := E.phases C n (by omega)
    cases e : β n with
    | none => rw [(none_eq E e).1]; exact H
    | some b =>
      cases b with
      | call i o =>
        obtain ⟨ew, _, _, h⟩ := call_eq E e
        rcases h with ⟨_, h⟩ | ⟨h1, h2, h3⟩
        · rw [h]; exact H
        · have hh := over_home (P i) h1
          refine H.step K.ok P h3 (fun k _ => by rw [ew]; exact Frame.refl _ _) ?_ (fun k d hk L => ?_)
          · rw [ew]
            refine moves_idle (fun K z g => ?_) (fun _ _ g => g) trivial
            cases ep : (τ n).ph i <;> rw [ep] at g h1 <;> first | exact g | cases h1
          · rw [ew]
            by_cases ek : k = i
            · subst ek
              rcases out_cases (hh L).out with g | ⟨o, r, g⟩ <;> rw [g] <;> trivial
            · rw [h2, upd_ne _ _ _ ek] at hk
              exact H.get k d hk L
      | run i y qs =>
        obtain ⟨ew, h2, h3, _, hm⟩ := run_eq E e
        have F : ∀ k, k ≠ i → Frame (τ n).w (τ (n + 1)).w k := by
          intro k hk
          cases ea : (next (τ n) i y qs).1 with
          | none => rw [ew, ea]; exact Frame.refl _ _
          | some a =>
            rw [ea] at hm
            refine E.frame C (by omega) hm ?_
            rcases next_who ea with g | g <;> rw [g] <;> simp
            exact fun g => hk g.symm
        have M : Moves (τ n).w (τ (n + 1)).w i ((τ n).ph i) (next (τ n) i y qs).2 ∧
            ∀ d, (τ n).op i = .get d → ∀ L, GetPc (((τ (n + 1)).w.side L).ix.pc i) := by
          have p := P i
          rw [ew] at W' ⊢
          cases eo : (τ n).op i with
          | get d => rw [eo] at p; have := get_moves K.ok W' eo p H; exact ⟨this.1, fun _ _ => this.2⟩
          | insert d v => rw [eo] at p; exact ⟨put_moves K W' eo p H, nofun⟩
        refine H.step K.ok P h3 F M.1 (fun k d hk L => ?_)
        rw [h2] at hk
        by_cases ek : k = i
        · subst ek; exact M.2 d hk L
        · rw [(F k ek).pc L]; exact H.get k d hk L

/-- The version word of a leaf that nobody holds. -/
theorem Exec.leaf_free (E : Exec fixed strict τ β) (C : Clean strict τ β N) {n : Nat} (hn : n ≤ N) {L x : Nat} (hm : (τ n).w.f.made L = true)
    (hu : ((τ n).w.f.layer L).used x = true) (hf : ((τ n).w.f.layer L).hold x = .free) :
    NV.lockable (((τ n).w.f.layer L).leaf x).word = true ∧ (((τ n).w.f.layer L).leaf x).mark = false := by
  have F := E.whole.forest C
  have e : Whole.upTo N (tree τ) n = (τ n).w.f := Whole.upTo_eq hn
  have hm' : (Whole.upTo N (tree τ) n).made L = true := by rw [e]; exact hm
  have h1 := (F.proj_exec hm').wok n x
  have h2 := (F.proj_exec hm').marks n x
  rw [Forest.proj_eq hm', e] at h1 h2
  have h1 := h1 hu
  have h2 := h2 hu
  rw [hf] at h1 h2
  constructor
  · rcases h1 with ⟨g, _⟩ | ⟨w, hi, g⟩
    · cases g
    · have g : _ = w := g
      rw [g, NV.lockable_iff, hi.w0]; rfl
  · cases em : (((τ n).w.f.layer L).leaf x).mark with
    | false => rfl
    | true => exact absurd (h2 em) (by nofun)

/-- The leaves that a thread has to unlock. -/
def kept (s : Whole.St V) (i : Nat) : Ph V → List (Nat × Nat)
  | .down L _ =>
    match ((s.side L).ins i).grip with
    | some z => [(L, z)]
    | none => []
  | .undo L _ x | .store L _ x _ _ _ _ | .publish L _ x _ _ | .conv L _ x | .freeze L _ x _ | .close L x _ | .drop L x _ => [(L, x)]
  | .part L _ x y | .prop L _ x y _ => [(L, x), (L, y)]
  | _ => []

theorem kept_length (s : Whole.St V) (i : Nat) (p : Ph V) : (kept s i p).length ≤ 2 := by
  cases p <;> simp only [kept] <;> (try split) <;> simp

theorem keeps_mem {s : Whole.St V} {i : Nat} {p : Ph V} {K z : Nat} (h : keeps s i p K z) : (K, z) ∈ kept s i p := by
  cases p with
  | down L m =>
    obtain ⟨rfl, _, g⟩ := h
    simp only [kept, g]
    exact List.mem_singleton.2 rfl
  | part L m x y =>
    obtain ⟨rfl, rfl | rfl⟩ := h <;> simp [kept]
  | prop L m x y n =>
    obtain ⟨rfl, ⟨rfl, _⟩ | ⟨rfl, _⟩⟩ := h <;> simp [kept]
  | undo => obtain ⟨rfl, rfl⟩ := h; simp [kept]
  | store => obtain ⟨rfl, rfl⟩ := h; simp [kept]
  | publish => obtain ⟨rfl, rfl⟩ := h; simp [kept]
  | conv => obtain ⟨rfl, rfl⟩ := h; simp [kept]
  | freeze => obtain ⟨rfl, rfl⟩ := h; simp [kept]
  | close => obtain ⟨rfl, rfl⟩ := h; simp [kept]
  | drop => obtain ⟨rfl, rfl⟩ := h; simp [kept]
  | _ => exact absurd h id

theorem keeps_runs {s : Whole.St V} {o : Op V} {i : Nat} {p : Ph V} (h : PhOk s o i p) (G : ∀ d, o = .get d → ∀ L, GetPc ((s.side L).ix.pc i))
    {K z : Nat} (hk : keeps s i p K z) : p.over = false ∧ ∃ d v, o = .insert d v := by
  constructor
  · cases p <;> first | rfl | exact absurd hk id
  · cases o with
    | insert d v => exact ⟨d, v, rfl⟩
    | get d =>
      have h : GetOk s i p := h
      have G := G d rfl
      cases p with
      | down L m =>
        obtain ⟨rfl, g⟩ := hk
        obtain ⟨o, r, n, g⟩ := g.1
        have := G K
        rw [g] at this; exact absurd this id
      | idle => exact absurd hk id
      | ret => exact absurd hk id
      | err => exact absurd hk id
      | enter => exact absurd hk id
      | read => exact absurd hk id
      | count => exact absurd hk id
      | _ => exact absurd h id
end

end Verif.Ops
