import Verif.Proof.OpsLocks4
set_option linter.unusedSimpArgs false
set_option linter.unusedVariables false
/-! There are always numbers for new leaves and new layers, and a suffix that is in the way can be turned into layers. -/
namespace Verif.Ops
open Verif.Internode (upd upd_same upd_ne)
open Verif.Perm (size get)
open Verif.Spec (Bytes)
open Verif.Forest (keyIn Under leavesFor alike)
open Verif.Whole (LAct WOk onLeaves raw lact isLocked)
open Verif.Tree (Leaf searchForInsert)
variable {V : Type} {fixed strict : Bool}

/-- Only finitely many layers and leaves have been allocated. -/
structure Room (s : Forest.St V) : Prop where
  layers : ∃ B, ∀ z, B ≤ z → s.made z = false
  leaves : ∀ L, s.made L = true → ∃ B, ∀ x, B ≤ x → (s.layer L).used x = false

/-- A step allocates at most one leaf. -/
theorem used_chain (c : Chain.St V) (a : Chain.Act V) : (Chain.act fixed c a).used = c.used ∨ ∃ y, (Chain.act fixed c a).used = upd c.used y true := by
  cases a <;> simp only [Chain.act]
  case hold x =>
    left
    unfold Chain.hstep
    split <;> first | rfl | (split <;> rfl)
  all_goals repeat' split
  all_goals first | exact .inl trivial | exact .inl rfl | exact .inr ⟨_, rfl⟩

theorem used_raw (c : Chain.St V) (a : Chain.Act V) : (raw fixed c a).used = c.used ∨ ∃ y, (raw fixed c a).used = upd c.used y true := by
  cases a <;> first | exact .inl rfl | exact used_chain _ _

theorem bound_upd {u u' : Nat → Bool} (h : u' = u ∨ ∃ y, u' = upd u y true) (b : ∃ B, ∀ x, B ≤ x → u x = false) : ∃ B, ∀ x, B ≤ x → u' x = false := by
  obtain ⟨B, hB⟩ := b
  rcases h with e | ⟨y, e⟩
  · exact ⟨B, fun x hx => by rw [e]; exact hB x hx⟩
  · refine ⟨B + y + 1, fun x hx => ?_⟩
    rw [e, upd_ne _ _ _ (by omega)]; exact hB x (by omega)

theorem list_bound : ∀ qs : List Nat, ∃ B, ∀ z ∈ qs, z < B
  | [] => ⟨0, fun _ h => by cases h⟩
  | q :: qs => by
    obtain ⟨B, hB⟩ := list_bound qs
    refine ⟨B + q + 1, fun z hz => ?_⟩
    rcases List.mem_cons.1 hz with rfl | hz
    · omega
    · have := hB z hz; omega

theorem Room.act {s : Whole.St V} (W : WOk s) (h : Room s.f) (a : Whole.Act V) : Room (Whole.act fixed strict s a).f := by
  cases a with
  | inLayer L a =>
    simp only [Whole.act]
    split
    · refine ⟨h.layers, fun K hK => ?_⟩
      have hK : s.f.made K = true := hK
      show ∃ B, ∀ x, B ≤ x → (upd s.f.layer L _ K).used x = false
      by_cases e : K = L
      · subst e
        rw [upd_same]
        refine bound_upd ?_ (h.leaves K hK)
        unfold lact
        simp only
        cases onLeaves (s.lay K) a with
        | none => exact .inl rfl
        | some b => exact used_raw _ _
      · rw [upd_ne _ _ _ e]; exact h.leaves K hK
    · exact h
  | convert L i t d v qs =>
    simp only [Whole.act]
    split
    · split
      · simp only [Forest.act]
        split
        · constructor
          · obtain ⟨B, hB⟩ := h.layers
            obtain ⟨D, hD⟩ := list_bound qs
            refine ⟨B + D, fun z hz => ?_⟩
            show (s.f.made z || qs.contains z) = false
            rw [hB z (by omega), Bool.false_or]
            cases e : qs.contains z with
            | false => rfl
            | true => have := hD z (List.contains_iff_mem.1 e); omega
          · intro K hK
            have hK : (s.f.made K || qs.contains K) = true := hK
            show ∃ B, ∀ x, B ≤ x → (upd _ L _ K : Chain.St V).used x = false
            have new : ∀ b : Leaf V, ∃ B, ∀ x, B ≤ x → (Forest.newLayer b).used x = false := by
              intro b
              refine ⟨2, fun x hx => ?_⟩
              show (x == 1) = false
              simp; omega
            by_cases e : K = L
            · subst e
              rw [upd_same]
              refine bound_upd (used_chain _ _) (h.leaves K ?_)
              rename_i hcf
              obtain ⟨_, _, _, cf⟩ := Forest.conflict_conf hcf
              exact W.basic.made K cf.up
            · rw [upd_ne _ _ _ e]
              by_cases e' : K ∈ qs
              · simp only [if_pos e']; exact new _
              · simp only [if_neg e']
                refine h.leaves K ?_
                rw [show qs.contains K = false from by simpa using e', Bool.or_false] at hK
                exact hK
        · exact h
      · exact h
    · exact h

/-- Enough new layers can be made for any two suffixes that differ. -/
theorem leaves_exist (ev nv : V) : ∀ (n : Nat) (ek nk : Key) (fe fw : Bytes) (ne nw : Nat), ek.Sees fe ne → nk.Sees fw nw →
    fe.drop (8 * ne) ≠ fw.drop (8 * nw) → (fe.drop (8 * ne)).length ≤ n →
    ∃ k, 0 < k ∧ ∀ qs : List Nat, qs.length = k → (leavesFor ek ev nk nv qs).length = qs.length
  | n, ek, nk, fe, fw, ne, nw, he, hw, hne, hl => by
    cases ha : alike ek nk with
    | false =>
      refine ⟨1, by omega, fun qs hq => ?_⟩
      match qs, hq with
      | [q], _ => unfold leavesFor; rw [ha]; rfl
    | true =>
      obtain ⟨hch, h8, h8'⟩ := (Forest.alike_iff (Forest.Obs.of_sees he) (Forest.Obs.of_sees hw)).1 ha
      have htake := Spec.take_eq_of_chunk_eq _ _ (by omega) (by omega) hch
      have hdrop : ∀ (f : Bytes) (n : Nat), f.drop (8 * (n + 1)) = (f.drop (8 * n)).drop 8 := by
        intro f n; rw [List.drop_drop]; rfl
      have hne' : fe.drop (8 * (ne + 1)) ≠ fw.drop (8 * (nw + 1)) := by
        rw [hdrop, hdrop]
        intro h
        exact hne (by rw [← List.take_append_drop 8 (fe.drop (8 * ne)), ← List.take_append_drop 8 (fw.drop (8 * nw)), htake, h])
      cases n with
      | zero => omega
      | succ n =>
        obtain ⟨k, hk, h⟩ := leaves_exist ev nv n ek.shift nk.shift fe fw (ne + 1) (nw + 1) he.shift hw.shift hne' (by
          rw [hdrop, List.length_drop]; omega)
        refine ⟨k + 1, by omega, fun qs hq => ?_⟩
        match qs, hq with
        | [q], hq => simp at hq; omega
        | q :: q' :: qs, hq =>
          unfold leavesFor
          rw [ha, if_pos rfl, List.length_cons, h (q' :: qs) (by simpa using hq)]
          rfl

/-- There are numbers for any number of new layers. -/
theorem Room.take {s : Forest.St V} (h : Room s) (k : Nat) : ∃ qs : List Nat, qs.length = k ∧ qs.Nodup ∧ ∀ z ∈ qs, s.made z = false := by
  obtain ⟨B, hB⟩ := h.layers
  refine ⟨List.range' B k, List.length_range', List.nodup_range', fun z hz => hB z ?_⟩
  exact (List.mem_range'_1.1 hz).1

/-- An insert that meets another suffix can go on. -/
theorem conflict_some {s : Whole.St V} {d : Bytes} {v : V} {L m i x t : Nat} (K : Know s) (R : Room s.f) (h : Own s d L m i x)
    (hl : isLocked ((s.f.layer L).hold x) = true)
    (hf : searchForInsert ((s.f.layer L).leaf x).b (kat d m) 0 (size 5 ((s.f.layer L).leaf x).b.perm) = .conflict t) :
    ∃ qs bs, Forest.conflict s.f L x t d v qs = some bs := by
  obtain ⟨lv, eh⟩ := Whole.isLocked_iff hl
  have sp := Tree.searchForInsert_spec ((s.f.layer L).leaf x).b (kat d m) (size 5 ((s.f.layer L).leaf x).b.perm) 0
  rw [hf] at sp
  obtain ⟨j, _, hj, et, e1, e2, e3, e4, e5⟩ := sp
  have g := h.good K hl j (by omega)
  rw [← et] at g
  have hfs : Chain.freeSlot ((s.f.layer L).leaf x).b.perm t = false := by
    cases g : Chain.freeSlot ((s.f.layer L).leaf x).b.perm t with
    | false => rfl
    | true => exact absurd et.symm (of_decide_eq_true g j (by omega))
  rcases g with ⟨⟨ev, hc⟩, g | ⟨_, g⟩⟩ | ⟨_, g, _⟩
  · omega
  · obtain ⟨es, hs⟩ := Option.isSome_iff_exists.1 g
    unfold Leaf.suf at e5
    rw [if_pos (show _ = Tree.ksufKeylenx from e3), hs] at e5
    have hne : es ≠ (kat d m).suffix := fun g => e5 (by rw [g])
    have hp := h.place.keyIn
    have ha : 8 ∣ (s.f.pre L).length := ⟨m, h.place.len⟩
    have hk := (Forest.keyIn_at (s.f.pre L) d).shift.sees
    have e1' : d.drop (8 * ((s.f.pre L).length / 8 + 1)) = d.drop ((s.f.pre L).length + 8) := by congr 1; omega
    obtain ⟨k, hk0, H⟩ := leaves_exist ev v _ (Key.mk' es) (keyIn (s.f.pre L) d).shift es d 0 ((s.f.pre L).length / 8 + 1) (Key.mk'_sees es) hk (by
      rw [e1', Nat.mul_zero, List.drop_zero]
      rw [← hp, (Forest.obs_keyIn ha).suffix, List.drop_drop] at hne
      exact hne) (Nat.le_refl _)
    obtain ⟨qs, q1, q2, q3⟩ := R.take k
    refine ⟨qs, leavesFor (Key.mk' es) ev (keyIn (s.f.pre L) d).shift v qs, ?_⟩
    unfold Forest.conflict
    simp only
    rw [eh]
    simp only [hc, hs]
    rw [if_pos ⟨h.place.up, h.place.under, hfs, e3, by rw [hp]; exact e1, by rw [hp]; exact e4, by rw [hp]; exact hne, q3, q2, by rintro rfl; simp at q1; omega, H qs q1⟩]
  · rw [e3] at g; omega

section
variable {τ : Nat → St V} {β : Nat → Option (Act V)} {N : Nat}

theorem Exec.room (E : Exec fixed strict τ β) (C : Clean strict τ β N) : ∀ n, n ≤ N → Room (τ n).w.f
  | 0, _ => by
    have hs := E.start.tree.leaves
    refine ⟨⟨1, fun z hz => ?_⟩, fun L hL => ⟨2, fun x hx => ?_⟩⟩
    · cases e : (τ 0).w.f.made z with
      | false => rfl
      | true => have := (hs.made z).1 e; omega
    · have := (hs.made L).1 hL
      subst this
      cases e : ((τ 0).w.f.layer 0).used x with
      | false => rfl
      | true => have := (hs.root.used x).1 e; omega
  | n + 1, hn => by
    have H := Exec.room E C n (by omega)
    cases e : β n with
    | none => rw [(none_eq E e).1]; exact H
    | some b =>
      cases b with
      | call i o => rw [(call_eq E e).1]; exact H
      | run i y qs =>
        rw [(run_eq E e).1]
        cases (next (τ n) i y qs).1 with
        | none => exact H
        | some a => exact H.act (E.know C (n := n) (by omega)).ok a
end

end Verif.Ops
