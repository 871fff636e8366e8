import Verif.Proof.OpsRest
import Verif.Prop.Whole
set_option linter.unusedSimpArgs false
set_option linter.unusedVariables false
/-! Calls in executions. -/
namespace Verif.Ops
open Verif.Internode (upd upd_same upd_ne)
open Verif.Perm (size get)
open Verif.Spec (Bytes)
open Verif.Tree (Leaf Cell searchKlx searchForInsert PermOK)
open Verif.Forest (Under keyIn)
open Verif.Whole (Inside isLocked Frame WOk LAct onLeaves beside raw lact onForest inIndex)
variable {V : Type} {fixed strict : Bool}

section
variable {s : Whole.St V} {d : Bytes} {v : V} {i L m : Nat}

theorem put_down (K : Know s) (h : PutOk s d v i (.down L m)) (qs : List Nat) :
    PutOk (after fixed strict s (down s (.insert d v) L m i qs).1) d v i (down s (.insert d v) L m i qs).2 ∧
      Effect s d v (down s (.insert d v) L m i qs).1 (.down L m) (down s (.insert d v) L m i qs).2 := by
  obtain ⟨hh, hl⟩ := h
  unfold down
  split
  · rename_i g; exact absurd g (hh.look _ _)
  · rename_i o r k n g
    exact ⟨put_adv hh g, .mute _ _ _ _ rfl rfl⟩
  · rename_i o r n g
    split
    · rename_i x d' v' go e
      cases e
      exact put_decide K ⟨hh, go⟩ (hl x go) qs
    · rename_i d' v' ho e
      have P := put_step (fixed := fixed) (strict := strict) (v := v) K.ok hh ho
      unfold checked
      rw [g]
      split
      · rename_i x ec eo ei
        cases eo
        split
        · rename_i hm
          refine ⟨⟨P.1, ?_⟩, .mute _ _ _ _ rfl rfl⟩
          show ((Whole.act fixed strict s (.inLayer L (.step i))).side L).owns i = none
          rw [post_side_same hh.place.up]
          simp only [beside]
          rw [show (s.lay L).s = s.side L from rfl, g, ei]
          simp only
          rw [show (s.lay L).c = s.f.layer L from rfl, if_pos hm]
          simp only [Whole.Side.owns, Whole.Side.goto, upd_same]
        · exact ⟨P, .mute _ _ _ _ rfl rfl⟩
      · exact ⟨P, .mute _ _ _ _ rfl rfl⟩
    · rename_i e; cases e
  · rename_i g; exact absurd g (K.fine _ _ _ _)
  · split
    · rename_i hi
      obtain ⟨h1, h2⟩ := put_walk (fixed := fixed) (strict := strict) hh hi
      exact ⟨⟨h1, fun x g => absurd (h2.symm.trans g) nofun⟩, .mute _ _ _ _ rfl rfl⟩
    · exact ⟨⟨hh, hl⟩, .none _ _ _ rfl⟩

/-- A step of an insert. -/
theorem put_next {s : St V} (K : Know s.w) {i : Nat} (ho : s.op i = .insert d v) (h : PutOk s.w d v i (s.ph i)) (y : Nat) (qs : List Nat) :
    PutOk (after fixed strict s.w (next s i y qs).1) d v i (next s i y qs).2 ∧ Effect s.w d v (next s i y qs).1 (s.ph i) (next s i y qs).2 := by
  have ek : ∀ m, keyAt (s.op i) m = kat d m := by intro m; rw [ho]; rfl
  unfold next
  simp only
  cases e : s.ph i with
  | idle => rw [e] at h; exact ⟨h, .none _ _ _ rfl⟩
  | enter L m =>
    rw [e] at h
    simp only
    rw [ek, ho]
    exact ⟨put_enter K.ok h, .mute _ _ _ _ rfl rfl⟩
  | down L m => rw [e] at h; simp only; rw [ho]; exact put_down K h qs
  | read L m => rw [e] at h; exact absurd h id
  | store L m x t pos off n =>
    rw [e] at h
    simp only
    rw [ek, ho]
    exact put_store K h
  | publish L m x pos off => rw [e] at h; exact put_publish K h
  | conv L m x => rw [e] at h; exact put_conv K h
  | freeze L m x sp =>
    rw [e] at h
    simp only
    split
    · rename_i g; exact put_freeze K h g
    · exact ⟨h, .none _ _ _ rfl⟩
  | part L m x z => rw [e] at h; exact put_part K h
  | prop L m x z n => rw [e] at h; exact put_spread K h
  | undo L m x =>
    rw [e] at h
    obtain ⟨hh, ho⟩ := h
    refine ⟨⟨hh.post rfl rfl hh.inside rfl rfl hh.look, fun x g => ?_⟩, .mute _ _ _ _ rfl rfl⟩
    rw [show (after fixed strict s.w (some (.inLayer L (.unlock _)))).side L = s.w.side L from post_side_same hh.place.up _] at g
    rw [ho] at g; cases g
  | close L x a =>
    rw [e] at h
    obtain ⟨⟨m, h1⟩, h2, h3⟩ := h
    refine ⟨⟨put_finish h1 h2, fun q m' g => ?_, fun g => ?_⟩, .mute _ _ _ _ rfl rfl⟩ <;> rcases h3 with rfl | ⟨r, rfl⟩ <;> cases g
  | drop L x a => rw [e] at h; exact put_drop K h
  | count => rw [e] at h; exact ⟨h, .none _ _ _ rfl⟩
  | ret r => rw [e] at h; exact ⟨h, .none _ _ _ rfl⟩
  | err => rw [e] at h; exact absurd h id

/-- What a step in a layer leaves of a lookup. -/
theorem get_post (W : WOk s) {a : LAct V} (h : GetOk s i (.down L m)) (ha : onLeaves (s.lay L) a = none ∨ notRead a = true) :
    GetOk (Whole.act fixed strict s (.inLayer L a)) i (.down L m) := by
  cases hu : s.f.up L with
  | false => simp only [Whole.act, hu]; exact h
  | true =>
    refine ⟨fun z hz => (h.1 z hz).post hu _ hz, fun g => ?_⟩
    rw [post_made hu] at g
    rw [post_layer_same hu]
    rcases ha with e | e
    · unfold lact; rw [e]; exact h.2 g
    · rw [lact_rd _ _ _ _ e]; exact h.2 g

/-- A step of a lookup. -/
theorem get_next {s : St V} (W : WOk s.w) {i : Nat} (ho : s.op i = .get d) (h : GetOk s.w i (s.ph i)) (y : Nat) (qs : List Nat) :
    GetOk (after fixed strict s.w (next s i y qs).1) i (next s i y qs).2 ∧ ∀ d', wr s.w (next s i y qs).1 d' = none := by
  unfold next
  simp only
  cases e : s.ph i with
  | idle => rw [e] at h; exact ⟨h, fun _ => rfl⟩
  | enter L m =>
    rw [e] at h
    exact ⟨get_post W ⟨fun z _ => h z, (h L).rd⟩ (.inr rfl), wr_mute _ _ rfl⟩
  | down L m =>
    rw [e] at h
    simp only
    rw [ho]
    unfold down
    split
    · rename_i o n g
      refine ⟨?_, wr_mute _ _ rfl⟩
      have hu : s.w.f.up L = true := by
        cases e : s.w.f.up L with
        | true => rfl
        | false => rw [W.unused L e] at g; cases g
      refine ⟨fun z hz => (h.1 z hz).post hu _ hz, ?_⟩
      have hq := h.2 (W.basic.made L hu)
      have eb : beside strict (L == 0) (s.w.lay L) (.enter i) = (s.w.side L).goto i (.done o none) := by
        simp only [beside]
        rcases quiet_cases hq with g' | ⟨k, r, w, g'⟩
        · rw [show (s.w.lay L).s = s.w.side L from rfl, g, show (s.w.lay L).c.rd i = _ from g']
        · rw [show (s.w.lay L).s = s.w.side L from rfl, g, show (s.w.lay L).c.rd i = _ from g']
      intro g'
      refine g'.2 o none ?_
      show ((Whole.act fixed strict s.w (.inLayer L (.enter i))).side L).ix.pc i = _
      rw [post_side_same hu, eb]; exact upd_same _ _ _
    · rename_i o r k n g
      refine ⟨get_post W h (.inl ?_), wr_mute _ _ rfl⟩
      simp only [onLeaves]
      rw [show (s.w.lay L).s.ix.pc i = _ from g]
    · split
      · rename_i g; cases g
      · rename_i g; cases g
      · exact ⟨get_post W h (.inr rfl), wr_mute _ _ rfl⟩
    · exact ⟨trivial, fun _ => rfl⟩
    · split
      · exact ⟨get_post W h (.inr rfl), wr_mute _ _ rfl⟩
      · exact ⟨h, fun _ => rfl⟩
  | read L m =>
    rw [e] at h
    simp only
    split
    · rename_i k r w g
      have H : ∀ z, Home s.w z i := by
        intro z
        by_cases hz : z = L
        · subst hz; exact ⟨h.2, fun _ => by rw [g]; trivial⟩
        · exact h.1 z hz
      refine ⟨?_, fun _ => rfl⟩
      cases r with
      | value v => exact H
      | absent => exact H
      | descend q => exact H
      | misread => trivial
    · refine ⟨?_, wr_mute _ _ rfl⟩
      show GetOk (Whole.act fixed strict s.w (.inLayer L (.read i))) i (.read L m)
      cases hu : s.w.f.up L with
      | false => simp only [Whole.act, hu]; exact h
      | true =>
        refine ⟨fun z hz => (h.1 z hz).post hu _ hz, fun g => h.2 ?_⟩
        unfold Inside at g ⊢
        rw [post_side_same hu] at g; exact g
  | ret r => rw [e] at h; exact ⟨h, fun _ => rfl⟩
  | err => exact ⟨trivial, fun _ => rfl⟩
  | _ => rw [e] at h; exact absurd h id

/-- A thread makes its own steps. -/
theorem next_who {s : St V} {i y : Nat} {qs : List Nat} {a : Whole.Act V} (h : (next s i y qs).1 = some a) : a.who = some i ∨ a.who = none := by
  unfold next at h
  simp only at h
  split at h
  · cases h
  · cases h; exact .inl rfl
  · unfold down at h
    split at h
    · cases h; exact .inl rfl
    · cases h; exact .inl rfl
    · split at h
      · unfold decide at h
        simp only at h
        split at h
        · split at h <;> cases h <;> exact .inl rfl
        · split at h <;> cases h <;> exact .inl rfl
        · split at h <;> cases h <;> exact .inl rfl
        · have hs : ∀ (L m x : Nat) (b : Leaf V) (ik : Nat), (splitOr L m i x b ik).1 = some a → a.who = some i := by
            intro L m x b ik g
            unfold splitOr at g
            split at g <;> cases g <;> rfl
          split at h
          · exact .inl (hs _ _ _ _ _ h)
          · split at h
            · split at h
              · cases h
              · exact .inl (hs _ _ _ _ _ h)
            · cases h
      · cases h; exact .inl rfl
      · cases h; exact .inl rfl
    · cases h
    · simp only at h
      split at h
      · cases h; exact .inl rfl
      · cases h
  · cases h; exact .inr rfl
  · split at h <;> cases h; exact .inl rfl
  · split at h
    · cases h
    · cases h
      rename_i n _ _
      left
      unfold assign
      split <;> rfl
  · cases h; exact .inl rfl
  · cases h; exact .inl rfl
  · split at h <;> cases h; exact .inl rfl
  · cases h; exact .inl rfl
  · unfold spread at h
    simp only at h
    (repeat' split at h) <;> cases h <;> first | exact .inl rfl | exact .inr rfl
  · cases h; exact .inl rfl
  · cases h; exact .inr rfl
  · cases h
  · cases h
  · cases h
end

variable {τ : Nat → St V} {β : Nat → Option (Act V)} {N : Nat}

/-- The tree goes through an execution of `Model/Whole.lean`. -/
theorem Exec.whole (E : Exec fixed strict τ β) : Whole.Exec fixed strict (tree τ) (moves τ β) := by
  refine ⟨E.start.tree, fun n => ?_⟩
  have := E.steps n
  unfold tree moves
  rw [this]
  cases e : β n with
  | none => rfl
  | some a =>
    cases a with
    | call i o =>
      show (act fixed strict (τ n) (.call i o)).w = (τ n).w
      unfold act
      simp only
      split <;> rfl
    | run i y qs =>
      show (match (next (τ n) i y qs).1 with | none => (τ n).w | some a => Whole.act fixed strict (τ n).w a) =
        match (next (τ n) i y qs).1 with | none => (τ n).w | some a => Whole.act fixed strict (τ n).w a
      rfl

/-- What is known about the tree. -/
theorem Exec.know (E : Exec fixed strict τ β) (C : Clean strict τ β N) {n : Nat} (hn : n ≤ N) : Know (τ n).w := by
  have X := E.whole
  have F := X.forest C
  have e : ∀ k, k ≤ N → Whole.upTo N (tree τ) k = (τ k).w.f := fun k hk => Whole.upTo_eq hk
  refine ⟨X.ok C n hn, fun L hm => ?_, fun d L m q hw hh => ?_, fun L x lv t q st j hu eh hj => ?_, fun L i o e => C.done n hn L i o e⟩
  · have hm' : (Whole.upTo N (tree τ) n).made L = true := by rw [e n hn]; exact hm
    have := (F.proj_exec hm').tidy n
    rw [Forest.proj_eq hm', e n hn] at this
    exact this
  · have hu' : (Whole.upTo N (tree τ) n).up L = true := by rw [e n hn]; exact hw.up
    have hm' := (F.basic n).made L hu'
    have hc := (F.proj_exec hm').holds (F.proj_steps hm') (n := n) (k := keyIn ((τ n).w.f.pre L) d) (r := .descend q)
      (by rw [Forest.proj_eq hm', e n hn]; exact hh)
    have := F.goes_down (j := n) (c := n) (L := L) (q := q) (m := m) (d := d) hu' (by rw [e n hn]; exact hw.under) (by rw [e n hn]; exact hw.len)
      (by rw [e n hn]; exact hc) (Nat.le_refl n)
    rw [e n hn] at this
    exact ⟨this.1, this.2.1, this.2.2⟩
  · obtain ⟨j', h1, h2⟩ := (F.good n).pend L x lv t q st (by rw [e n hn]; exact hu) (by rw [e n hn]; exact eh)
    rw [e n hn, hj] at h1
    cases h1
    have := h2.rel
    rw [e n hn] at this
    exact this

/-- The steps of others. -/
theorem Exec.frame (E : Exec fixed strict τ β) (C : Clean strict τ β N) {n : Nat} (hn : n < N) {a : Whole.Act V} (ha : moves τ β n = some a)
    {i : Nat} (hw : a.who ≠ some i) : Frame (τ n).w (τ (n + 1)).w i := by
  have X := E.whole
  have es : (τ (n + 1)).w = Whole.act fixed strict (τ n).w a := by
    have := X.steps n
    rw [ha] at this; exact this
  have := Whole.frame (fixed := fixed) (strict := strict) (X.ok C n (by omega)) a (i := i) ?_ ?_ hw
  · rw [es]; exact this
  · intro L i g o r p w x hp hch
    exact C.calm n hn L i (by rw [ha, g]) o r p w x hp hch
  · rintro L i ⟨o, r, hp⟩
    have := C.done (n + 1) (by omega) L i o r
    unfold tree at this
    rw [es] at this
    exact this hp

theorem run_eq (E : Exec fixed strict τ β) {n i y : Nat} {qs : List Nat} (e : β n = some (.run i y qs)) :
    (τ (n + 1)).w = after fixed strict (τ n).w (next (τ n) i y qs).1 ∧ (τ (n + 1)).op = (τ n).op ∧
      (τ (n + 1)).ph = upd (τ n).ph i (next (τ n) i y qs).2 ∧ (τ (n + 1)).count = (τ n).count + counted ((τ n).ph i) ∧
      moves τ β n = (next (τ n) i y qs).1 := by
  have := E.steps n
  rw [e] at this
  simp only at this
  rw [this]
  refine ⟨?_, rfl, rfl, rfl, by unfold moves; rw [e]; rfl⟩
  show (match (next (τ n) i y qs).1 with | none => (τ n).w | some a => Whole.act fixed strict (τ n).w a) = _
  cases (next (τ n) i y qs).1 <;> rfl

theorem call_eq (E : Exec fixed strict τ β) {n i : Nat} {o : Op V} (e : β n = some (.call i o)) :
    (τ (n + 1)).w = (τ n).w ∧ (τ (n + 1)).count = (τ n).count ∧ moves τ β n = none ∧
      ((((τ n).ph i).over = false ∧ τ (n + 1) = τ n) ∨
        (((τ n).ph i).over = true ∧ (τ (n + 1)).op = upd (τ n).op i o ∧ (τ (n + 1)).ph = upd (τ n).ph i (.enter 0 0))) := by
  have := E.steps n
  rw [e] at this
  simp only [act] at this
  refine ⟨?_, ?_, by unfold moves; rw [e]; rfl, ?_⟩
  · rw [this]; split <;> rfl
  · rw [this]; split <;> rfl
  · cases h : ((τ n).ph i).over with
    | false => rw [h] at this; exact .inl ⟨rfl, this⟩
    | true => rw [h, if_pos rfl] at this; rw [this]; exact .inr ⟨rfl, rfl, rfl⟩

theorem none_eq (E : Exec fixed strict τ β) {n : Nat} (e : β n = none) : τ (n + 1) = τ n ∧ moves τ β n = none := by
  have := E.steps n
  rw [e] at this
  exact ⟨this, by unfold moves; rw [e]; rfl⟩

theorem over_home {s : Whole.St V} {o : Op V} {i : Nat} {p : Ph V} (h : PhOk s o i p) (ho : p.over = true) (L : Nat) : Home s L i := by
  cases p with
  | idle => cases o <;> exact h L
  | ret r => cases o <;> exact h L
  | _ => cases ho

/-- At every moment every thread is where its call is. -/
theorem Exec.phases (E : Exec fixed strict τ β) (C : Clean strict τ β N) : ∀ n, n ≤ N → ∀ i, PhOk (τ n).w ((τ n).op i) i ((τ n).ph i)
  | 0, _ => by
    intro i
    rw [E.start.idle i]
    have H : ∀ L, Home (τ 0).w L i := by
      intro L
      refine ⟨?_, fun g => ?_⟩
      · unfold Inside
        rw [E.start.tree.side L]
        exact fun g => g.1 rfl
      · have hs := E.start.tree.leaves
        have : L = 0 := (hs.made L).1 g
        subst this
        have := hs.root.idle i
        rw [this]; trivial
    cases (τ 0).op i <;> exact H
  | n + 1, hn => by
    have ih := E.phases C n (by omega)
    have K := E.know C (n := n) (by omega)
    intro i
    cases e : β n with
    | none => rw [(none_eq E e).1]; exact ih i
    | some a =>
      cases a with
      | call j o =>
        obtain ⟨h1, _, _, h2⟩ := call_eq E e
        rcases h2 with ⟨_, h2⟩ | ⟨hov, h2, h3⟩
        · rw [h2]; exact ih i
        · rw [h1, h2, h3]
          by_cases hij : i = j
          · subst hij
            rw [upd_same, upd_same]
            have H := over_home (ih i) hov
            cases o with
            | get d => exact H
            | insert d v =>
              obtain ⟨g1, g2, g3⟩ := (E.whole.forest C).root_under n d
              rw [Whole.upTo_eq (show n ≤ N by omega)] at g1 g2 g3
              exact ⟨H, g1, g2, g3⟩
          · rw [upd_ne _ _ _ hij, upd_ne _ _ _ hij]; exact ih i
      | run j y qs =>
        obtain ⟨h1, h2, h3, _, h5⟩ := run_eq E e
        by_cases hij : i = j
        · subst hij
          rw [h1, h2, h3, upd_same]
          have := ih i
          cases ho : (τ n).op i with
          | get d => rw [ho] at this; exact (get_next K.ok ho this y qs).1
          | insert d v => rw [ho] at this; exact (put_next K ho this y qs).1
        · rw [h2, h3, upd_ne _ _ _ hij]
          refine PhOk.frame K.ok ?_ (ih i)
          cases g : (next (τ n) j y qs).1 with
          | none => rw [h1, g]; exact Frame.refl _ _
          | some a =>
            refine E.frame C (by omega) (h5.trans g) ?_
            rcases next_who g with k | k <;> rw [k]
            · exact fun k' => hij (Option.some.inj k').symm
            · nofun

end Verif.Ops
