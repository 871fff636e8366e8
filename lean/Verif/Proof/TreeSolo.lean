import Verif.Proof.TreeRace
import Mathlib.Algebra.Order.BigOperators.Group.Finset
import Mathlib.Data.Finset.Range
set_option linter.unusedSimpArgs false
set_option linter.unusedVariables false
set_option maxRecDepth 100000
/-!
# One thread running alone does what the sequential functions do
-/
namespace Verif.Threads
open Verif.Spec
open Verif.Internode (Arr upd upd_same upd_ne)
open Verif.Perm (size get back insertFromBack swapFreeSlots)
open Verif.Tree
variable {V : Type}

/-- `m` steps of one thread. -/
def iter (fixed : Bool) : Nat → Tree V × Pc V → Tree V × Pc V
  | 0, x => x
  | m + 1, x => iter fixed m (step fixed x.1 x.2)

/-- Some number of steps of one thread leads from `x` to `y`. -/
def Leads (fixed : Bool) (x y : Tree V × Pc V) : Prop := ∃ m, iter fixed m x = y

theorem iter_add (fixed : Bool) (m n : Nat) (x : Tree V × Pc V) : iter fixed (m + n) x = iter fixed n (iter fixed m x) := by
  induction m generalizing x with
  | zero => simp [iter]
  | succ m ih =>
    have : m + 1 + n = (m + n) + 1 := by omega
    rw [this]
    exact ih _

theorem Leads.refl {fixed : Bool} (x : Tree V × Pc V) : Leads fixed x x := ⟨0, rfl⟩

theorem Leads.trans {fixed : Bool} {x y z : Tree V × Pc V} (h1 : Leads fixed x y) (h2 : Leads fixed y z) : Leads fixed x z := by
  obtain ⟨m, rfl⟩ := h1
  obtain ⟨n, rfl⟩ := h2
  exact ⟨m + n, iter_add fixed m n x⟩

theorem Leads.step {fixed : Bool} {x y z : Tree V × Pc V} (h1 : Threads.step fixed x.1 x.2 = y) (h2 : Leads fixed y z) :
    Leads fixed x z := by
  obtain ⟨n, rfl⟩ := h2
  exact ⟨n + 1, by rw [← h1]; rfl⟩

theorem climb_leads (fixed : Bool) {t : Tree V} {o : Op V} {k : Key} {r : Nat} : ∀ f p, maybeParent t f p = .ok r →
    Leads fixed (t, .climb o k p) (t, .desc o k r r) := by
  intro f
  induction f with
  | zero => intro p h; cases h
  | succ f ih =>
    intro p h
    simp only [maybeParent] at h
    cases hk : t.kind p with
    | none => rw [hk] at h; cases h
    | some kd =>
      rw [hk] at h
      cases hp : t.parent p with
      | none =>
        rw [hp] at h; cases h
        exact Leads.step (by simp only [Threads.step, hk, hp]) (Leads.refl _)
      | some q =>
        rw [hp] at h
        exact Leads.step (y := (t, .climb o k q)) (by simp only [Threads.step, hk, hp]) (ih q h)

theorem desc_leads (fixed : Bool) {t : Tree V} {d : Bytes} {v : V} {k : Key} {r l : Nat} : ∀ f p,
    reachLeaf t r k.ikey f p = .ok l →
    Leads fixed (t, .desc (.insert d v) k r p) (t, .adv (.insert d v) k r maxBlinkHops l) := by
  intro f
  induction f with
  | zero => intro p h; cases h
  | succ f ih =>
    intro p h
    simp only [reachLeaf] at h
    cases hk : t.kind p with
    | none => rw [hk] at h; cases h
    | some kd =>
      rw [hk] at h
      cases kd with
      | leaf =>
        simp only [bind, Except.bind, stable] at h
        split at h
        · cases h
        · cases h
          exact Leads.step (by simp only [Threads.step, hk]) (Leads.refl _)
      | inode =>
        simp only [bind, Except.bind, stable] at h
        split at h
        · cases h
        · cases hc : (t.arr p).child (KSearch.upperBoundDirect k.ikey (t.arr p).nkeys (t.arr p).ikey) with
          | none =>
            rw [hc] at h
            exact Leads.step (y := (t, .desc (.insert d v) k r r)) (by simp only [Threads.step, hk, hc]) (ih r h)
          | some c =>
            rw [hc] at h
            exact Leads.step (y := (t, .desc (.insert d v) k r c)) (by simp only [Threads.step, hk, hc]) (ih c h)

theorem adv_leads (fixed : Bool) {t : Tree V} {o : Op V} {k : Key} {r l' : Nat} {ex : Bool} : ∀ h l,
    advance t k.ikey h l = .ok (l', ex) →
    Leads fixed (t, .adv o k r h l) (t, if ex then .climb o k (if fixed then r else t.root) else .sect o k r l') := by
  intro h
  induction h with
  | zero =>
    intro l e
    cases e
    exact Leads.step rfl (Leads.refl _)
  | succ h ih =>
    intro l e
    simp only [advance] at e
    cases hn : t.next l with
    | none =>
      rw [hn] at e; cases e
      exact Leads.step (by simp only [Threads.step, hn]; rfl) (Leads.refl _)
    | some q =>
      rw [hn] at e
      simp only [bind, Except.bind] at e
      cases hb : ikeyBound t q with
      | error x => rw [hb] at e; cases e
      | ok nb =>
        rw [hb] at e
        dsimp only at e
        by_cases hle : nb ≤ k.ikey
        · rw [if_pos hle] at e
          exact Leads.step (y := (t, .adv o k r h q)) (by simp only [Threads.step, hn, hb, if_pos hle]) (ih q e)
        · rw [if_neg hle] at e
          cases e
          exact Leads.step (by simp only [Threads.step, hn, hb, if_neg hle]; rfl) (Leads.refl _)

/-- A round of the insert loop. -/
theorem insertLoop_leads {d : Bytes} {v : V} {t' : Tree V} {x : Option V} : ∀ f (t : Tree V) k lr,
    insertLoop v f t k lr = .ok (t', x) → Leads false (t, .climb (.insert d v) k lr) (t', .done (.insert d v) x) := by
  intro f
  induction f with
  | zero => intro t k lr h; cases h
  | succ f ih =>
    intro t k lr h
    rw [insertLoop_eq] at h
    cases h1 : maybeParent t (walkFuel t) lr with
    | error e => rw [h1] at h; cases h
    | ok r =>
      rw [h1] at h
      simp only [bind, Except.bind] at h
      refine (climb_leads false _ _ h1).trans ?_
      cases h2 : reachLeaf t r k.ikey (walkFuel t) r with
      | error e => rw [h2] at h; cases h
      | ok l0 =>
        rw [h2] at h
        dsimp only at h
        refine (desc_leads false _ _ h2).trans ?_
        cases h3 : advance t k.ikey maxBlinkHops l0 with
        | error e => rw [h3] at h; cases h
        | ok y =>
          obtain ⟨l, ex⟩ := y
          rw [h3] at h
          dsimp only at h
          refine (adv_leads false _ _ h3).trans ?_
          cases ex with
          | true => exact ih t k t.root h
          | false =>
            simp only [Bool.false_eq_true, if_false] at h ⊢
            cases h4 : crit v t k r l with
            | error e => rw [h4] at h; cases h
            | ok z =>
              obtain ⟨t1, nx⟩ := z
              rw [h4] at h
              cases nx with
              | again k' lr' =>
                dsimp only at h
                exact Leads.step (y := (t1, .climb (.insert d v) k' lr')) (by simp only [Threads.step, h4]) (ih t1 k' lr' h)
              | done x' =>
                dsimp only at h
                cases h
                exact Leads.step (by simp only [Threads.step, h4]) (Leads.refl _)

/-! ## Schedules as lists of actions -/

/-- The state after a list of actions. -/
def after (fixed : Bool) (s : St V) (l : List (Act V)) : St V := l.foldl (act fixed) s

theorem after_append (fixed : Bool) (s : St V) (l l' : List (Act V)) :
    after fixed s (l ++ l') = after fixed (after fixed s l) l' := by simp [after]

theorem after_runs (fixed : Bool) (i : Nat) : ∀ (m : Nat) (s : St V),
    after fixed s (List.replicate m (.run i)) =
      ⟨(iter fixed m (s.tree, s.pc i)).1, upd s.pc i (iter fixed m (s.tree, s.pc i)).2⟩ := by
  intro m
  induction m with
  | zero =>
    intro s
    have : upd s.pc i (s.pc i) = s.pc := by
      funext j
      by_cases e : j = i
      · subst e; rw [upd_same]
      · rw [upd_ne _ _ _ e]
    show s = ⟨s.tree, upd s.pc i (s.pc i)⟩
    rw [this]
  | succ m ih =>
    intro s
    show after fixed (act fixed s (.run i)) (List.replicate m (.run i)) = _
    rw [ih]
    have h1 : ((act fixed s (.run i)).tree, (act fixed s (.run i)).pc i) = step fixed s.tree (s.pc i) := by
      simp only [act, upd_same]
    rw [h1]
    have h2 : ∀ y, upd (act fixed s (.run i)).pc i y = upd s.pc i y := by
      intro y
      funext j
      by_cases e : j = i
      · subst e; rw [upd_same, upd_same]
      · rw [upd_ne _ _ _ e, upd_ne _ _ _ e]; exact upd_ne _ _ _ e
    rw [h2]
    rfl

/-- Every list of actions is the beginning of an execution. -/
theorem exec_of_list (fixed : Bool) (l : List (Act V)) :
    ∃ σ α, Exec fixed σ α ∧ (∀ n, σ n = after fixed ⟨Tree.empty, fun _ => .idle⟩ ((List.range n).map α)) ∧
      (List.range l.length).map α = l := by
  let α : Nat → Act V := fun n => l.getD n (.run 0)
  refine ⟨fun n => after fixed ⟨Tree.empty, fun _ => .idle⟩ ((List.range n).map α), α, ⟨rfl, ?_⟩, fun _ => rfl, ?_⟩
  · intro n
    show after fixed _ ((List.range (n + 1)).map α) = _
    rw [List.range_succ, List.map_append, after_append]
    rfl
  · apply List.ext_getElem
    · simp
    · intro i h1 h2
      simp [α, List.getD_eq_getElem?_getD, List.getElem?_eq_getElem h2]

/-- A whole insert by thread `i`, the other threads resting. -/
theorem insert_leads {t t' : Tree V} {d : Bytes} {v : V} {x : Option V} (h : insert t d v = .ok (t', x)) :
    Leads false (t, begin t (.insert d v)) (t', .done (.insert d v) x) := by
  unfold Tree.insert at h
  unfold begin
  show Leads false (t, match Key.new? d with | none => _ | some k => _) _
  cases hk : Key.new? d with
  | none => rw [hk] at h; cases h
  | some k =>
    rw [hk] at h
    exact insertLoop_leads _ _ _ _ h

/-- A sequence of inserts by thread `i`, the other threads resting. -/
theorem inserts_after {i : Nat} : ∀ (hs : History V) (s : St V) (t' : Tree V) (os : List (Option V)),
    (s.pc i = .idle ∨ ∃ o r, s.pc i = .done o r) → runFrom s.tree hs = .ok (t', os) →
    ∃ l c, after false s l = ⟨t', upd s.pc i c⟩ ∧ (c = .idle ∨ ∃ o r, c = .done o r) ∧
      ∀ a, a ∈ l → a = .run i ∨ ∃ p, p ∈ hs ∧ a = .call i (.insert p.1 p.2) := by
  intro hs
  induction hs with
  | nil =>
    intro s t' os hp h
    cases h
    refine ⟨[], s.pc i, ?_, hp, by simp⟩
    exact after_runs false i 0 s
  | cons p hs ih =>
    obtain ⟨d, v⟩ := p
    intro s t' os hp h
    simp only [runFrom, bind, Except.bind] at h
    cases h1 : insert s.tree d v with
    | error e => rw [h1] at h; cases h
    | ok y =>
      obtain ⟨t1, x⟩ := y
      rw [h1] at h
      dsimp only at h
      cases h2 : runFrom t1 hs with
      | error e => rw [h2] at h; cases h
      | ok z =>
        obtain ⟨t2, os'⟩ := z
        rw [h2] at h
        cases h
        obtain ⟨m, hm⟩ := insert_leads h1
        have e1 : act false s (.call i (.insert d v)) = ⟨s.tree, upd s.pc i (begin s.tree (.insert d v))⟩ := by
          rcases hp with hp | ⟨o, r, hp⟩ <;> simp only [act, hp]
        have e2 : after false s (.call i (.insert d v) :: List.replicate m (.run i)) =
            ⟨t1, upd s.pc i (.done (.insert d v) x)⟩ := by
          show after false (act false s (.call i (.insert d v))) _ = _
          rw [e1, after_runs]
          simp only [upd_same, hm]
          congr 1
          funext j
          by_cases e : j = i
          · subst e; rw [upd_same, upd_same]
          · rw [upd_ne _ _ _ e, upd_ne _ _ _ e, upd_ne _ _ _ e]
        obtain ⟨l, c, g1, g2, g3⟩ := ih ⟨t1, upd s.pc i (.done (.insert d v) x)⟩ t2 os'
          (Or.inr ⟨_, _, upd_same _ _ _⟩) h2
        refine ⟨(.call i (.insert d v) :: List.replicate m (.run i)) ++ l, c, ?_, g2, ?_⟩
        · rw [after_append, e2, g1]
          congr 1
          funext j
          by_cases e : j = i
          · subst e; rw [upd_same, upd_same]
          · rw [upd_ne _ _ _ e, upd_ne _ _ _ e]; exact upd_ne _ _ _ e
        · intro a ha
          rcases List.mem_append.1 ha with ha | ha
          · rcases List.mem_cons.1 ha with rfl | ha
            · exact Or.inr ⟨(d, v), by simp, rfl⟩
            · exact Or.inl (List.eq_of_mem_replicate ha)
          · rcases g3 a ha with e | ⟨p, hp, e⟩
            · exact Or.inl e
            · exact Or.inr ⟨p, by simp [hp], e⟩

/-! ## More than 128 leaves -/

/-- If the walk along the leaves ends within its limit, it has passed all the leaves up to its end. -/
theorem advance_span {t : Tree V} {G : Ghost} {lk} (I : Inv t G G lk) (ru : RU t G) (hs : AllStrict t G) (ik : Nat) : ∀ h l il, G l = some il →
    t.kind l = some .leaf → il.lo ≤ ik → ∃ l' ex, advance t ik h l = .ok (l', ex) ∧
      (ex = false → ∃ S : List Nat, S.length ≤ h ∧ ∀ x ix, G x = some ix → t.kind x = some .leaf → ix.pfx = il.pfx →
        il.lo ≤ ix.lo → ix.lo ≤ ik → x ∈ S) := by
  intro h
  induction h with
  | zero => intro l il _ _ _; exact ⟨l, true, rfl, by simp⟩
  | succ h ih =>
    intro l il hl hk hlo
    have one : ∀ x ix, G x = some ix → t.kind x = some .leaf → ix.pfx = il.pfx → il.lo ≤ ix.lo → ltHi ix.lo il.hi → x = l := by
      intro x ix h1 h2 h3 h4 h5
      exact leaf_unique I ru (ik := ix.lo) h1 hl h2 hk h3 (Nat.le_refl _) (hs x ix h2 h1).ne h4 h5
    cases hn : t.next l with
    | none =>
      refine ⟨l, false, by simp only [advance, hn], fun _ => ⟨[l], by simp, ?_⟩⟩
      intro x ix h1 h2 h3 h4 h5
      rw [one x ix h1 h2 h3 h4 (by rw [(I.link l il hk hl).nonext hn]; simp)]
      simp
    | some q =>
      obtain ⟨iq, N, hb⟩ := next_bound I hk hl hn
      by_cases hle : iq.lo ≤ ik
      · obtain ⟨l', ex, e1, e2⟩ := ih q iq N.dom N.kind hle
        refine ⟨l', ex, by simp only [advance, hn, hb, bind, Except.bind, if_pos hle, e1], fun hex => ?_⟩
        obtain ⟨S, s1, s2⟩ := e2 hex
        refine ⟨l :: S, by simp only [List.length_cons]; omega, ?_⟩
        intro x ix h1 h2 h3 h4 h5
        by_cases c : ix.lo < iq.lo
        · rw [one x ix h1 h2 h3 h4 (by rw [N.lo]; simpa using c)]; simp
        · exact List.mem_cons_of_mem _ (s2 x ix h1 h2 (by rw [h3, N.pfx]) (by omega) h5)
      · refine ⟨l, false, by simp only [advance, hn, hb, bind, Except.bind, if_neg hle], fun _ => ⟨[l], by simp, ?_⟩⟩
        intro x ix h1 h2 h3 h4 h5
        rw [one x ix h1 h2 h3 h4 (by rw [N.lo]; simp; omega)]
        simp

/-- So with more than `24 * h` different chunks between the start and `ik`, the walk runs out of its `h` hops. -/
theorem advance_overrun {t : Tree V} {G : Ghost} {K : Bytes → Prop} (I : Inv0 t G) (ru : RU t G) (S : Strong K t G) {ik h l : Nat}
    {il : Info} (hl : G l = some il) (hk : t.kind l = some .leaf) (hlo : il.lo = 0) (N : Nat) (hN : 24 * h < N)
    (he : ∀ i, i < N → i ≤ ik ∧ ∃ e, HasE t G il.pfx.bytes e ∧ e.ikey = i) :
    ∃ l', advance t ik h l = .ok (l', true) := by
  obtain ⟨l', ex, e1, e2⟩ := advance_span I ru S.strict ik h l il hl hk (by omega)
  cases ex with
  | true => exact ⟨l', e1⟩
  | false =>
    exfalso
    obtain ⟨L, s1, s2⟩ := e2 rfl
    have sub : Finset.range N ⊆ L.toFinset.biUnion (fun x => (Finset.range 24).image fun j => ((t.body x).ent j).ikey) := by
      intro i hi
      obtain ⟨h1, e, ⟨x, ix, j, a1, a2, a3, a4, a5⟩, h3⟩ := he i (Finset.mem_range.1 hi)
      have hb := I.body x ix a2 a1
      have hx : x ∈ L := by
        refine s2 x ix a1 a2 (S.bu x l ix il a1 hl a3) (by omega) ?_
        have := hb.lo j a4
        rw [a5, h3] at this
        omega
      simp only [Finset.mem_biUnion, List.mem_toFinset, Finset.mem_image, Finset.mem_range]
      exact ⟨x, hx, j, Nat.lt_of_lt_of_le a4 hb.perm.size_le, by rw [a5, h3]⟩
    have c1 := Finset.card_le_card sub
    rw [Finset.card_range] at c1
    have c2 := Finset.card_biUnion_le_card_mul L.toFinset
      (fun x => (Finset.range 24).image fun j => ((t.body x).ent j).ikey) 24 (fun x _ => by
        have := Finset.card_image_le (s := Finset.range 24) (f := fun j => ((t.body x).ent j).ikey)
        rwa [Finset.card_range] at this)
    have c3 := List.toFinset_card_le L
    have : L.toFinset.card * 24 ≤ h * 24 := Nat.mul_le_mul_right 24 (by omega)
    omega

end Verif.Threads
