import Verif.Model.Alloc
import Mathlib.Data.List.Perm.Basic
set_option linter.unusedSimpArgs false
/-!
# C39: node memory is released exactly once
-/
namespace Verif.Alloc

/-- Nodes handed to the allocator by a history. -/
def allocated : List Op → List Ptr
  | [] => []
  | .alloc p :: os => p :: allocated os
  | _ :: os => allocated os

/-- The callers' contract: a node is handed over once, and a node is retired only while the allocator still holds it
(handed over before, not retired before, not yet torn down).  `live` is the list of nodes held. -/
def Contract : List Ptr → List Ptr → List Op → Prop
  | _, _, [] => True
  | seen, live, .alloc p :: os => p ∉ seen ∧ Contract (p :: seen) (p :: live) os
  | seen, live, .retire p :: os => p ∈ live ∧ Contract seen (live.erase p) os
  | seen, _, .teardown :: os => Contract seen [] os
  | seen, live, .reclaim :: os => Contract seen live os

theorem swapRemove_perm (l : List Ptr) (pos : Nat) (h : pos < l.length) :
    (swapRemove l pos).Perm (l.eraseIdx pos) := by
  unfold swapRemove
  rcases List.eq_nil_or_concat l with rfl | ⟨l', x, rfl⟩
  · simp at h
  · simp only [List.concat_eq_append] at h ⊢
    simp only [List.getLast?_append, List.getLast?_singleton, Option.some_or]
    simp only [List.length_append, List.length_singleton] at h
    by_cases c : pos < l'.length
    · rw [List.set_append_left _ _ c, List.dropLast_append_of_ne_nil (by simp), List.eraseIdx_append_of_lt_length c]
      simp only [List.dropLast_singleton, List.append_nil]
      have h1 : (l'.set pos x).Perm (x :: l'.eraseIdx pos) := by
        rw [List.set_eq_take_append_cons_drop, if_pos c, List.eraseIdx_eq_take_drop_succ]
        exact List.perm_middle
      exact h1.trans (List.perm_append_singleton x _).symm
    · have : pos = l'.length := by omega
      subst this
      rw [List.set_append_right _ _ (Nat.le_refl _), List.eraseIdx_append_of_length_le (Nat.le_refl _)]
      simp

theorem untrack_perm (l : List Ptr) (p : Ptr) : (untrack l p).Perm (l.erase p) := by
  unfold untrack
  split
  · rename_i h
    rw [List.findIdx?_eq_none_iff] at h
    rw [List.erase_of_not_mem]
    intro hm
    have := h p hm
    simp at this
  · rename_i pos h
    rw [List.findIdx?_eq_some_iff_getElem] at h
    obtain ⟨hl, h1, h2⟩ := h
    refine (swapRemove_perm l pos hl).trans ?_
    rw [List.erase_eq_eraseIdx]
    have h1' : l[pos] = p := by simpa using h1
    have hi : l.idxOf? p = some pos := by
      unfold List.idxOf?
      rw [List.findIdx?_eq_some_iff_getElem]
      exact ⟨hl, h1, h2⟩
    simp [hi]

/-- All nodes the allocator or the collector holds or has freed. -/
def St.all (s : St) : List Ptr := s.leafPtrs ++ s.internodePtrs ++ s.deferred ++ s.freed

/-- `live` is what the tracking lists hold. -/
def Tracks (s : St) (live : List Ptr) : Prop :=
  (s.leafPtrs ++ s.internodePtrs).Perm live ∧ (∀ p ∈ s.leafPtrs, p.leaf = true) ∧ (∀ p ∈ s.internodePtrs, p.leaf = false)

theorem all_perm_step (s : St) (live seen : List Ptr) (o : Op) (os : List Op) (ht : Tracks s live)
    (hc : Contract seen live (o :: os)) :
    (match o with
     | .alloc p => (s.step o).all.Perm (p :: s.all)
     | _ => (s.step o).all.Perm s.all) ∧
    ∃ live' seen', Tracks (s.step o) live' ∧ Contract seen' live' os ∧
      seen' = (match o with | .alloc p => p :: seen | _ => seen) := by
  obtain ⟨t1, t2, t3⟩ := ht
  cases o with
  | alloc p =>
    obtain ⟨c1, c2⟩ := hc
    cases hp : p.leaf with
    | true =>
      simp only [St.step, St.push, hp, if_true]
      refine ⟨?_, p :: live, p :: seen, ⟨?_, ?_, t3⟩, c2, rfl⟩
      · simp only [St.all, List.append_assoc]
        exact List.perm_middle
      · rw [List.append_assoc]
        exact List.perm_middle.trans (t1.cons p)
      · intro q hq
        rcases List.mem_append.1 hq with h | h
        · exact t2 q h
        · simp at h; rw [h, hp]
    | false =>
      simp only [St.step, St.push, hp, if_false, Bool.false_eq_true]
      refine ⟨?_, p :: live, p :: seen, ⟨?_, t2, ?_⟩, c2, rfl⟩
      · simp only [St.all, List.append_assoc]
        rw [← List.append_assoc s.leafPtrs, ← List.append_assoc s.leafPtrs]
        exact List.perm_middle
      · rw [← List.append_assoc]
        exact (List.perm_append_singleton p _).trans (t1.cons p)
      · intro q hq
        rcases List.mem_append.1 hq with h | h
        · exact t3 q h
        · simp at h; rw [h, hp]
  | retire p =>
    obtain ⟨c1, c2⟩ := hc
    have hm : p ∈ s.leafPtrs ++ s.internodePtrs := t1.mem_iff.2 c1
    cases hp : p.leaf with
    | true =>
      have hl : p ∈ s.leafPtrs := by
        rcases List.mem_append.1 hm with h | h
        · exact h
        · have := t3 p h; rw [hp] at this; cases this
      have hu := untrack_perm s.leafPtrs p
      simp only [St.step, St.retire, hp, if_true]
      refine ⟨?_, live.erase p, seen, ⟨?_, ?_, t3⟩, c2, rfl⟩
      · simp only [St.all]
        have h1 : (untrack s.leafPtrs p ++ s.internodePtrs ++ (s.deferred ++ [p]) ++ s.freed).Perm
            (p :: (s.leafPtrs.erase p ++ s.internodePtrs ++ s.deferred ++ s.freed)) := by
          have : (untrack s.leafPtrs p ++ s.internodePtrs ++ (s.deferred ++ [p]) ++ s.freed) =
              (untrack s.leafPtrs p ++ s.internodePtrs ++ s.deferred) ++ p :: s.freed := by simp
          rw [this]
          refine List.perm_middle.trans (List.Perm.cons p ?_)
          exact ((hu.append_right _).append_right _).append_right _
        refine h1.trans ?_
        have := (List.perm_cons_erase hl).symm
        rw [← List.cons_append, ← List.cons_append, ← List.cons_append]
        exact ((this.append_right _).append_right _).append_right _
      · refine (hu.append_right _).trans ?_
        rw [← List.erase_append_left _ hl]
        exact t1.erase p
      · intro q hq
        exact t2 q (List.mem_of_mem_erase (hu.mem_iff.1 hq))
    | false =>
      have hl : p ∈ s.internodePtrs := by
        rcases List.mem_append.1 hm with h | h
        · have := t2 p h; rw [hp] at this; cases this
        · exact h
      have hnl : p ∉ s.leafPtrs := by
        intro h; have := t2 p h; rw [hp] at this; cases this
      have hu := untrack_perm s.internodePtrs p
      simp only [St.step, St.retire, hp, if_false, Bool.false_eq_true]
      refine ⟨?_, live.erase p, seen, ⟨?_, t2, ?_⟩, c2, rfl⟩
      · simp only [St.all]
        have h1 : (s.leafPtrs ++ untrack s.internodePtrs p ++ (s.deferred ++ [p]) ++ s.freed).Perm
            (p :: (s.leafPtrs ++ s.internodePtrs.erase p ++ s.deferred ++ s.freed)) := by
          have : (s.leafPtrs ++ untrack s.internodePtrs p ++ (s.deferred ++ [p]) ++ s.freed) =
              (s.leafPtrs ++ untrack s.internodePtrs p ++ s.deferred) ++ p :: s.freed := by simp
          rw [this]
          refine List.perm_middle.trans (List.Perm.cons p ?_)
          exact ((hu.append_left _).append_right _).append_right _
        refine h1.trans ?_
        have h2 := (List.perm_cons_erase hl).symm
        have h3 : (p :: (s.leafPtrs ++ s.internodePtrs.erase p)).Perm (s.leafPtrs ++ s.internodePtrs) :=
          List.perm_middle.symm.trans (h2.append_left _)
        rw [← List.cons_append, ← List.cons_append]
        exact (h3.append_right _).append_right _
      · refine (hu.append_left _).trans ?_
        rw [← List.erase_append_right _ hnl]
        exact t1.erase p
      · intro q hq
        exact t3 q (List.mem_of_mem_erase (hu.mem_iff.1 hq))
  | teardown =>
    refine ⟨?_, [], seen, ⟨by simp [St.step, St.teardown], by simp [St.step, St.teardown], by simp [St.step, St.teardown]⟩, hc, rfl⟩
    simp only [St.step, St.teardown, St.all, List.nil_append, List.append_assoc]
    have h1 : (s.deferred ++ (s.freed ++ (s.leafPtrs ++ s.internodePtrs))).Perm
        ((s.leafPtrs ++ s.internodePtrs) ++ (s.deferred ++ s.freed)) := by
      rw [← List.append_assoc s.deferred]
      exact List.perm_append_comm
    simpa [List.append_assoc] using h1
  | reclaim =>
    cases hd : s.deferred with
    | nil => exact ⟨by simp [St.step, St.reclaim, hd], live, seen, ⟨by simpa [St.step, St.reclaim, hd] using t1, by simpa [St.step, St.reclaim, hd] using t2, by simpa [St.step, St.reclaim, hd] using t3⟩, hc, rfl⟩
    | cons p ps =>
      refine ⟨?_, live, seen, ⟨by simpa [St.step, St.reclaim, hd] using t1, by simpa [St.step, St.reclaim, hd] using t2, by simpa [St.step, St.reclaim, hd] using t3⟩, hc, rfl⟩
      simp only [St.step, St.reclaim, hd, St.all, List.append_assoc]
      apply List.Perm.append_left
      apply List.Perm.append_left
      rw [← List.append_assoc]
      exact List.perm_append_singleton p _

theorem run_all (os : List Op) : ∀ (s : St) (live seen : List Ptr), Tracks s live → Contract seen live os →
    (run s os).all.Perm (allocated os ++ s.all) := by
  induction os with
  | nil => intro s _ _ _ _; simp [run, allocated]
  | cons o os ih =>
    intro s live seen ht hc
    obtain ⟨h1, live', seen', ht', hc', _⟩ := all_perm_step s live seen o os ht hc
    have h2 := ih (s.step o) live' seen' ht' hc'
    have h3 : run s (o :: os) = run (s.step o) os := rfl
    rw [h3]
    cases o with
    | alloc p =>
      simp only [allocated]
      exact h2.trans ((h1.append_left _).trans List.perm_middle)
    | retire p => exact h2.trans (h1.append_left _)
    | teardown => exact h2.trans (h1.append_left _)
    | reclaim => exact h2.trans (h1.append_left _)

theorem contract_nodup (os : List Op) : ∀ (seen live : List Ptr), Contract seen live os →
    (allocated os).Nodup ∧ ∀ p ∈ allocated os, p ∉ seen := by
  induction os with
  | nil => intro _ _ _; simp [allocated]
  | cons o os ih =>
    intro seen live h
    cases o with
    | alloc p =>
      obtain ⟨h1, h2⟩ := h
      obtain ⟨h3, h4⟩ := ih _ _ h2
      simp only [allocated, List.nodup_cons]
      refine ⟨⟨fun hm => h4 p hm (by simp), h3⟩, ?_⟩
      intro q hq
      rcases List.mem_cons.1 hq with rfl | hq
      · exact h1
      · exact fun hm => h4 q hq (by simp [hm])
    | retire p => exact ih _ _ h.2
    | teardown => exact ih _ _ h
    | reclaim => exact ih _ _ h

/-- **C39.** For every history of allocator calls that keeps the callers' contract, with collector activity anywhere in
between, dropping the tree afterwards leaves every node ever handed to the allocator freed exactly once, and nothing else
freed. -/
theorem C39_freed_exactly_once (os : List Op) (h : Contract [] [] os) :
    ((run St.new os).dropTree.freed).Perm (allocated os) ∧ (allocated os).Nodup ∧
    ∀ p, (run St.new os).dropTree.freed.count p = if p ∈ allocated os then 1 else 0 := by
  have h1 := run_all os St.new [] [] ⟨by simp [St.new], by simp [St.new], by simp [St.new]⟩ h
  have h2 : (St.new).all = [] := rfl
  rw [h2, List.append_nil] at h1
  have hn := (contract_nodup os [] [] h).1
  have hp : ((run St.new os).dropTree.freed).Perm (allocated os) := by
    refine List.Perm.trans ?_ h1
    generalize run St.new os = s
    simp only [St.dropTree, St.teardown, St.reclaimAll, St.all, List.append_nil, List.append_assoc]
    have : (s.freed ++ (s.deferred ++ (s.leafPtrs ++ s.internodePtrs))).Perm
        ((s.leafPtrs ++ s.internodePtrs) ++ (s.freed ++ s.deferred)) := by
      rw [← List.append_assoc]; exact List.perm_append_comm
    refine this.trans ?_
    rw [List.append_assoc]
    exact (List.perm_append_comm.append_left _).append_left _
  refine ⟨hp, hn, ?_⟩
  intro p
  rw [hp.count_eq, hn.count]

/-- **C39.** After the drop nothing is left to be freed: no list holds a node, and a later run of the collector or another drop frees
nothing. -/
theorem C39_nothing_left (os : List Op) :
    (run St.new os).dropTree.leafPtrs = [] ∧ (run St.new os).dropTree.internodePtrs = [] ∧ (run St.new os).dropTree.deferred = [] ∧
    (run St.new os).dropTree.reclaim.freed = (run St.new os).dropTree.freed ∧
    (run St.new os).dropTree.dropTree.freed = (run St.new os).dropTree.freed := by
  generalize run St.new os = s
  simp [St.dropTree, St.teardown, St.reclaimAll, St.reclaim]

/-- **C39.** At no time is a node freed twice, nor freed while the allocator still tracks it, nor freed while it waits in
the collector. -/
theorem C39_never_freed_early (os : List Op) (h : Contract [] [] os) :
    ((run St.new os).leafPtrs ++ (run St.new os).internodePtrs ++ (run St.new os).deferred ++
      (run St.new os).freed).Nodup := by
  have h1 := run_all os St.new [] [] ⟨by simp [St.new], by simp [St.new], by simp [St.new]⟩ h
  have h2 : (St.new).all = [] := rfl
  rw [h2, List.append_nil] at h1
  exact h1.symm.nodup (contract_nodup os [] [] h).1

/-- The contract is met by a history with both kinds of node, a retirement from the middle of the list and collector
activity. -/
example : Contract [] [] [.alloc ⟨true, 0⟩, .alloc ⟨true, 1⟩, .alloc ⟨false, 2⟩, .alloc ⟨true, 3⟩, .retire ⟨true, 0⟩,
    .reclaim, .retire ⟨false, 2⟩] := by
  simp [Contract]

/-- The contract is needed: handing a node over twice frees it twice. -/
theorem C39_contract_needed :
    (run St.new [.alloc ⟨true, 0⟩, .alloc ⟨true, 0⟩]).dropTree.freed.count ⟨true, 0⟩ = 2 := by decide

end Verif.Alloc
