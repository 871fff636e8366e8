import Verif.Model.LeafRace
import Verif.Proof.TreeLayer
import Verif.Proof.StoreSim
import Verif.Prop.NodeVersion
set_option linter.unusedSimpArgs false
set_option linter.unusedVariables false
/-!
# Readers and writers on one leaf: writers
-/
namespace Verif.Race
open Verif.Spec (Bytes)
open Verif.Internode (upd)
open Verif.Perm (size get back backAtOffset insertFromBack swapFreeSlots params24)
open Verif.Tree
variable {V : Type}

def KeyOK (k : Key) : Prop := ∃ d n, d.length ≤ maxKeyLength ∧ k = Key.shiftTimes n (Key.mk' d)

theorem KeyOK.at {k : Key} (h : KeyOK k) : ∃ d n, d.length ≤ 256 ∧ k.At d n := by
  obtain ⟨d, n, h1, h2⟩ := h
  refine ⟨d, 0 + n, h1, ?_⟩
  subst h2
  exact (Key.mk'_at d).shiftTimes n

theorem BodyOK.any {b : Leaf V} {lo : Nat} {hi : Option Nat} (h : BodyOK b lo hi) : BodyOK b 0 none :=
  ⟨h.perm, h.sorted, h.dist, fun _ _ => Nat.zero_le _, fun _ _ => by simp, h.ok⟩

/-- What a writer is going to do, in terms of the leaf it found. -/
inductive PlanSpec (b : Leaf V) (op : WOp V) : List (Micro V) → Prop
  | none : PlanSpec b op []
  | update (j : Nat) (hj : j < b.n) (hm : Matches (b.ent j) op.k) (v : V) (hc : (b.ent j).cell = .val v)
      (hk : (b.ent j).klx = searchKlx op.k) : PlanSpec b op [.cell (get 5 b.perm j) (.val op.v)]
  | insert (p1 : BitVec 128) (pos : Nat) (hs : b.n < 24) (hpos : pos ≤ b.n) (hp1 : PermOK p1) (hz : size 5 p1 = b.n)
      (hg : ∀ j, j < b.n → get 5 p1 j = get 5 b.perm j)
      (h1 : ∀ j, j < pos → (b.ent j).ikey ≤ op.k.ikey)
      (h2 : ∀ j, pos ≤ j → j < b.n → op.k.ikey < (b.ent j).ikey)
      (h3 : ∀ j, j < b.n → (b.ent j).ikey = op.k.ikey → cls (b.ent j).klx ≠ kcls op.k) :
      PlanSpec b op (insertPlan (back 5 24 p1) op.k op.v (insertFromBack 5 24 p1 pos).1)
  | conflict (j : Nat) (hj : j < b.n) (hi : (b.ent j).ikey = op.k.ikey) (hs : op.k.hasSuffix = true)
      (hk : (b.ent j).klx = 64) (v : V) (hc : (b.ent j).cell = .val v) (s : Bytes) (hsf : (b.ent j).suf = some s)
      (hne : s ≠ op.k.suffix) : PlanSpec b op (conflictPlan (get 5 b.perm j) op.q)

theorem plan_spec {b : Leaf V} (hb : BodyOK b 0 none) (hasPrev : Bool) (op : WOp V) :
    PlanSpec b op (plan b hasPrev op) := by
  have H := search_insert_spec hb op.k
  unfold plan
  generalize searchForInsert b op.k 0 (size 5 b.perm) = f at H
  cases H with
  | found j hj hm v hc hk =>
    have hc' : b.cell (get 5 b.perm j) = .val v := hc
    simp only [hc']
    exact .update j hj hm v hc hk
  | layer j hj hi hs hk q hc => exact .none
  | conflict j hj hi hs hk v hc s hsf hne hs0 hsl => exact .conflict j hj hi hs hk v hc s hsf hne
  | notFound pos hp h1 h2 h3 =>
    simp only
    by_cases c : leafWidth ≤ size 5 b.perm
    · rw [if_pos c]; exact .none
    · rw [if_neg c]
      have hn : b.n < 24 := by unfold leafWidth at c; unfold Leaf.n; omega
      by_cases c2 : back 5 24 b.perm = 0 ∧ reuse0 b hasPrev op.k.ikey = false
      · rw [if_pos c2]
        cases ha : findAlt b.perm 1 (leafWidth - size 5 b.perm - 1) with
        | none => exact .none
        | some x =>
          obtain ⟨alt, off⟩ := x
          simp only
          obtain ⟨q1, q2, q3⟩ := Verif.Store.findAlt_spec ha
          have hn' : size 5 b.perm < 24 := hn
          have hoff : off < 24 - size 5 b.perm := by unfold leafWidth at q2; omega
          have hss : size 5 (swapFreeSlots 5 b.perm 23 (23 - off)) = b.n := by
            rw [Verif.Perm.swapFreeSlots_eq_exchange, Verif.Perm.size_exchange params24]; rfl
          have hgs : ∀ j, j < 24 → get 5 (swapFreeSlots 5 b.perm 23 (23 - off)) j =
              if j = 23 then get 5 b.perm (23 - off) else if j = 23 - off then get 5 b.perm 23 else get 5 b.perm j := by
            intro j hj
            rw [Verif.Perm.swapFreeSlots_eq_exchange, Verif.Perm.get_exchange params24 _ (by omega) (by omega) hj]
          have hbk : back 5 24 (swapFreeSlots 5 b.perm 23 (23 - off)) = alt := by
            show get 5 _ 23 = _
            rw [hgs 23 (by omega), if_pos rfl, q3]
          have := PlanSpec.insert (op := op) (swapFreeSlots 5 b.perm 23 (23 - off)) pos hn hp
            (Verif.Store.permOK_swap hb.perm (by omega) (by omega)) hss
            (fun j hj => by
              have : j < size 5 b.perm := hj
              rw [hgs j (by omega), if_neg (by omega), if_neg (by omega)])
            h1 h2 h3
          rw [hbk] at this
          exact this
      · rw [if_neg c2]
        exact .insert b.perm pos hn hp hb.perm rfl (fun _ _ => rfl) h1 h2 h3

/-- All stores of a list. -/
def runM (b : Leaf V) (l : List (Micro V)) : Leaf V := l.foldl Micro.app b

@[simp] theorem runM_nil (b : Leaf V) : runM b [] = b := rfl
@[simp] theorem runM_cons (b : Leaf V) (m : Micro V) (l : List (Micro V)) : runM b (m :: l) = runM (m.app b) l := rfl
theorem runM_append (b : Leaf V) (l l' : List (Micro V)) : runM b (l ++ l') = runM (runM b l) l' := List.foldl_append ..

theorem runM_insert (b : Leaf V) (s : Nat) (k : Key) (v : V) (p : BitVec 128) :
    runM b (insertPlan s k v p) = { assignSlot b s k v with perm := p } := by
  unfold insertPlan assignSlot
  by_cases h : k.hasSuffix
  · simp only [h, if_true, runM_cons, runM_nil, Micro.app]
    congr 1
    funext x; simp only [upd]; split <;> rfl
  · simp [h, runM_cons, Micro.app]

theorem runM_conflict (b : Leaf V) (s q : Nat) :
    runM b (conflictPlan s q) = { b with ksuf := upd b.ksuf s none, klx := upd b.klx s layerKeylenx,
                                         cell := upd b.cell s (.layer q) } := by
  unfold conflictPlan
  simp only [runM_cons, runM_nil, Micro.app]
  congr 1 <;> (funext x; simp only [upd]; split <;> rfl)

/-- With the free slots rearranged. -/
theorem bodyOK_perm {b : Leaf V} {lo : Nat} {hi : Option Nat} (hb : BodyOK b lo hi) {p : BitVec 128} (hp : PermOK p)
    (hz : size 5 p = b.n) (hg : ∀ j, j < b.n → get 5 p j = get 5 b.perm j) : BodyOK { b with perm := p } lo hi := by
  have hn : ({ b with perm := p } : Leaf V).n = b.n := hz
  have he : ∀ j, j < b.n → ({ b with perm := p } : Leaf V).ent j = b.ent j := by
    intro j hj
    show entAt _ (get 5 p j) = _
    rw [hg j hj]; rfl
  refine ⟨hp, ?_, ?_, ?_, ?_, ?_⟩
  · intro j j' h1 h2; rw [hn] at h2; rw [he j (by omega), he j' h2]; exact hb.sorted j j' h1 h2
  · intro j j' h1 h2; rw [hn] at h2; rw [he j (by omega), he j' h2]; exact hb.dist j j' h1 h2
  · intro j h; rw [hn] at h; rw [he j h]; exact hb.lo j h
  · intro j h; rw [hn] at h; rw [he j h]; exact hb.hi j h
  · intro j h; rw [hn] at h; rw [he j h]; exact hb.ok j h

/-- A whole critical section keeps the leaf well-formed. -/
theorem plan_body {b : Leaf V} (hb : BodyOK b 0 none) {op : WOp V} (hk : KeyOK op.k) {l : List (Micro V)}
    (h : PlanSpec b op l) : BodyOK (runM b l) 0 none := by
  cases h with
  | none => exact hb
  | update j hj hm v hc hkx =>
    have e : runM b [.cell (get 5 b.perm j) (.val op.v)] = { b with cell := upd b.cell (get 5 b.perm j) (.val op.v) } := rfl
    rw [e]
    refine bodyOK_set hb hj rfl (fun s hs => ?_) ⟨(b.ent j).ikey, (b.ent j).klx, .val op.v, (b.ent j).suf⟩ ?_ ?_ rfl rfl
    · simp [entAt, Leaf.suf, upd, hs]
    · simp [entAt, Leaf.ent, Leaf.suf, upd]
    · cases hb.ok j hj with
      | inline a _ _ => exact .inline a _ rfl
      | suffix a _ _ s hs h1 h2 => exact .suffix a _ rfl s hs h1 h2
      | layer a q hc' => rw [hc] at hc'; cases hc'
  | insert p1 pos hs hpos hp1 hz hg h1 h2 h3 =>
    rw [runM_insert]
    obtain ⟨d, n, hd, hat⟩ := hk.at
    have hb1 := bodyOK_perm hb hp1 hz hg
    have hn1 : ({ b with perm := p1 } : Leaf V).n = b.n := hz
    have he1 : ∀ j, j < b.n → ({ b with perm := p1 } : Leaf V).ent j = b.ent j := by
      intro j hj
      show entAt _ (get 5 p1 j) = _
      rw [hg j hj]; rfl
    refine bodyOK_insert hb1 (by omega) (pos := pos) (by omega) rfl (fun s hs => ?_) (newEnt op.k op.v) ?_
      (newEnt_ok_at hat.sees hd op.v) (Nat.zero_le _) (by simp) ?_ ?_ ?_
    · have := assignSlot_other b (back 5 24 p1) op.k op.v s hs
      exact this
    · exact assignSlot_entAt b (back 5 24 p1) op.k op.v
    · intro j hj; rw [he1 j (by omega)]; exact h1 j hj
    · intro j hj hj'; rw [hn1] at hj'; rw [he1 j hj']; exact h2 j hj hj'
    · intro j hj e; rw [hn1] at hj; rw [he1 j hj] at e ⊢; rw [newEnt_cls]; exact h3 j hj e
  | conflict j hj hi hs hkx v hc s hsf hne =>
    rw [runM_conflict]
    refine bodyOK_set hb hj rfl (fun s hs => ?_) ⟨(b.ent j).ikey, 128, .layer op.q, none⟩ ?_ (.layer rfl _ rfl) rfl ?_
    · simp [entAt, Leaf.suf, upd, hs]
    · simp [entAt, Leaf.ent, Leaf.suf, upd, layerKeylenx, ksufKeylenx]
    · rw [hkx]; rfl

/-! ## The version word -/

theorem idle_lockable {w : NV.W} (h : NV.Idle w) : NV.lockable w = true := by
  rw [NV.lockable_iff]; simp [h.w0]

theorem isDirty_eq (w : NV.W) : NV.isDirty w = !(NV.stableOk w) := by
  unfold NV.isDirty NV.stableOk; rfl

theorem idle_clean {w : NV.W} (h : NV.Idle w) : NV.isDirty w = false := by
  rw [isDirty_eq, NV.stableOk_iff]; simp [h.w0]

theorem locked_dirty {w : NV.W} (h : NV.Idle w) : NV.isDirty (NV.lockedOf w) = true := by
  rw [isDirty_eq, NV.stableOk_iff, NV.of_lockedOf h.w0]; simp

theorem idle_unlocked {w : NV.W} (h : NV.Idle w) : NV.isLocked w = false := by
  rw [NV.isLocked_iff]; simp [h.w0]

theorem locked_not_lockable {w : NV.W} (h : NV.Idle w) : NV.lockable (NV.lockedOf w) = false := by
  rw [NV.lockable_iff, NV.of_lockedOf h.w0]; simp

theorem unlock_cycle (w : NV.W) : NV.unlockOf (NV.lockedOf w) = NV.cycle w [] := rfl

theorem unlock_idle {w : NV.W} (h : NV.Idle w) : NV.Idle (NV.unlockOf (NV.lockedOf w)) := by
  rw [unlock_cycle]; exact NV.cycle_idle h []

/-- The word went from `v` to `w` during `c` critical sections. -/
inductive Since (v : NV.W) (c : Nat) (w : NV.W) : Prop
  | idle (h : w = NV.run v (List.replicate c (.cs [])))
  | held (h : w = NV.lockedOf (NV.run v (List.replicate c (.cs []))))

theorem run_replicate_succ (v : NV.W) (c : Nat) :
    NV.run v (List.replicate (c + 1) (.cs [])) = NV.cycle (NV.run v (List.replicate c (.cs []))) [] := by
  rw [List.replicate_succ', NV.run, List.foldl_append]; rfl

theorem nSections_replicate (c : Nat) : NV.nSections (List.replicate c (.cs [])) = c := by
  unfold NV.nSections
  rw [List.filter_replicate]; simp [NV.Ev.isCs]

/-- `has_changed` answers no only if no critical section ended (and fewer than `2^19` could have). -/
theorem Since.unchanged {v w : NV.W} {c : Nat} (hv : NV.Idle v) (h : Since v c w) (hc : c < 2 ^ 19)
    (hn : NV.hasChanged v w = false) : c = 0 := by
  obtain ⟨p, hp1, hp2, hp3, -⟩ := NV.run_ctr hv (List.replicate c (.cs []))
  rw [nSections_replicate] at hp2 hp3
  by_contra h0
  have hc : NV.ctr (NV.run v (List.replicate c (.cs []))) ≠ NV.ctr v := by
    have := NV.ctr_lt v
    rw [hp1]; omega
  apply hc
  rw [NV.hasChanged_eq_false_iff] at hn
  obtain ⟨-, -, -, -, h5, h6, -⟩ := hn
  rw [NV.ctr, NV.ctr, h5, h6]
  cases h with
  | idle h => rw [← h]
  | held h =>
    rw [h, NV.of_lockedOf (NV.run_idle hv _).w0]

/-! ## The invariant of writers -/

/-- Nobody holds the lock and the leaf is well-formed, or the lock holder has made some of its stores. -/
inductive WInv (s : St V) : Prop
  | free (ht : s.todo = []) (hb : BodyOK s.b 0 none) (hw : NV.Idle s.word)
  | busy (b0 : Leaf V) (op : WOp V) (done : List (Micro V)) (hb : BodyOK b0 0 none) (hk : KeyOK op.k)
      (hp : PlanSpec b0 op (done ++ s.todo)) (he : s.b = runM b0 done) (u : NV.W) (hu : NV.Idle u)
      (hw : s.word = NV.lockedOf u)

theorem WInv.step {hasPrev : Bool} {s s' : St V} (h : WInv s) (hs : Step hasPrev s s') : WInv s' := by
  cases hs with
  | start i k hi =>
    cases h with
    | free ht hb hw => exact .free ht hb hw
    | busy b0 op done hb hk hp he u hu hw => exact .busy b0 op done hb hk hp he u hu hw
  | read i =>
    cases h with
    | free ht hb hw => exact .free ht hb hw
    | busy b0 op done hb hk hp he u hu hw => exact .busy b0 op done hb hk hp he u hu hw
  | lock op hl hk =>
    cases h with
    | free ht hb hw => exact .busy s.b op [] hb hk (plan_spec hb hasPrev op) rfl s.word hw rfl
    | busy b0 op done hb hk hp he u hu hw => rw [hw, locked_not_lockable hu] at hl; cases hl
  | store m ms hm =>
    cases h with
    | free ht hb hw => rw [ht] at hm; cases hm
    | busy b0 op done hb hk hp he u hu hw =>
      refine .busy b0 op (done ++ [m]) hb hk ?_ ?_ u hu hw
      · rw [hm] at hp; simpa using hp
      · rw [runM_append, ← he]; rfl
  | unlock ht hl =>
    cases h with
    | free ht hb hw => rw [idle_unlocked hw] at hl; cases hl
    | busy b0 op done hb hk hp he u hu hw =>
      refine .free ht ?_ ?_
      · show BodyOK s.b 0 none
        rw [ht, List.append_nil] at hp
        rw [he]; exact plan_body hb hk hp
      · show NV.Idle (NV.unlockOf s.word)
        rw [hw]; exact unlock_idle hu

end Verif.Race
