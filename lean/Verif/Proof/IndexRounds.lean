import Verif.Proof.IndexLock
set_option linter.unusedSimpArgs false
set_option linter.unusedVariables false
/-! How the rounds of a propagation are used up: by the levels it climbs and by nodes that other threads create meanwhile. -/
namespace Verif.Index
open Verif.Internode
variable {V : Type}

/-- A thread that creates no node leaves alone the parent pointers of nodes it does not hold. -/
theorem parent_kept {strict main : Bool} {s : Heap V} {c : Pc V} (ok : ∀ o r q, c = .sect o r q → ∃ t v, o = .insert t v) {l : Nat}
    (hl : l ∉ holds c) :
    ((step strict main s c).1.node l).parent = (s.node l).parent ∨ s.fresh < (step strict main s c).1.fresh := by
  have M : ∀ (f : Node V → Node V) (n : Nat), (∀ x, (f x).parent = x.parent) → ((s.mod n f).node l).parent = (s.node l).parent := by
    intro f n h; rw [mod_node]; split
    · rename_i e; rw [h, e]
    · rfl
  cases c with
  | sect o r q =>
    obtain ⟨t, v, rfl⟩ := ok o r q rfl
    simp only [step]
    split
    · exact .inl rfl
    · split
      · left; dsimp only; refine M _ _ fun x => ?_; simp [Node.lock]
      · split
        · left; dsimp only; refine M _ _ fun x => ?_; simp [Node.lock]
        · split
          · left; dsimp only; refine M _ _ fun x => ?_; simp [Node.lock]
          · right; exact Nat.lt_succ_self _
  | par x =>
    have G : ∀ (e : Err) (o : Op V), ((((s.mod x.y Node.unlock).mod x.l Node.unlock).node l).parent = (s.node l).parent) := by
      intro e o
      simp only [mod_node]
      split
      · rename_i h; simp [holds, h] at hl
      · split
        · rename_i h; simp [holds, h] at hl
        · rfl
    simp only [step]
    split
    · exact .inl (G .rounds x.o)
    · split
      · split
        · right; exact Nat.lt_succ_self _
        · split
          · split
            · right; exact Nat.lt_succ_self _
            · exact .inl (G .rounds x.o)
          · exact .inl (G .rounds x.o)
      · exact .inl rfl
  | lck x p =>
    simp only [step]
    split
    · exact .inl rfl
    · exact .inl (M _ _ (fun x => rfl))
  | rechk x p =>
    simp only [step]
    split
    · exact .inl (M _ _ (fun x => by simp))
    · split
      · split
        · left
          simp only [mod_node]
          simp only [holds, List.mem_cons, List.not_mem_nil, or_false, not_or] at hl
          rw [if_neg hl.1, if_neg hl.2.2, if_neg hl.2.1]
        · exact .inl (M _ _ (fun x => by simp))
      · split
        · exact .inl rfl
        · right
          simp only [splitInode, mod_fresh, (setParents_fresh _ _ _ _).1]
          exact Nat.lt_succ_self _
  | ins x p todo =>
    cases todo with
    | nil =>
      left
      simp only [holds, List.mem_cons, List.not_mem_nil, or_false, not_or] at hl
      simp only [step, mod_node]
      rw [if_neg hl.1, if_neg hl.2.2, if_neg hl.2.1, if_neg hl.2.1]
    | cons st todo => left; simp only [step]; exact M _ _ (fun x => rfl)
  | climb o p => exact .inl rfl
  | stab o r p =>
    left; simp only [step]
    split
    · rfl
    · split
      · cases o <;> rfl
      · rfl
  | cmp o r p w a b =>
    left; simp only [step]
    split
    · split
      · rfl
      · split <;> rfl
    · rfl
  | look o q =>
    left; simp only [step]
    split
    · rfl
    · split <;> rfl
  | adv o r k q => left; cases k <;> rfl
  | _ => exact .inl rfl

/-- Steps among the `d` from step `m` in which a thread other than `i` creates a node. -/
noncomputable def othersNew (σ : Nat → St V) (α : Nat → Act V) (i m : Nat) : Nat → Nat
  | 0 => 0
  | d + 1 => othersNew σ α i m d + (open Classical in if α (m + d) ≠ .run i ∧ (σ (m + d)).heap.fresh < (σ (m + d + 1)).heap.fresh then 1 else 0)

/-- What is known of the rounds of a propagation; `k` nodes have been created by others since it began. -/
def RoundsOk (s : Heap V) (k : Nat) : Pc V → Prop
  | .par c => c.rounds ≤ (s.node c.l).ht + k
  | .lck c p => c.rounds ≤ (s.node c.l).ht + k + (if (s.node c.l).parent = p then 1 else 0)
  | .rechk c p => c.rounds ≤ (s.node c.l).ht + k + (if (s.node c.l).parent = p then 1 else 0)
  | .ins _ _ _ => True
  | _ => False

/-- Thread `i` has been in a propagation since step `m`, and its rounds are accounted for. -/
def Since (σ : Nat → St V) (α : Nat → Act V) (i n m d : Nat) : Prop :=
  n = m + 1 + d ∧ α m = .run i ∧ (∃ o r l, (σ m).pc i = .sect o r l) ∧ (∀ k, k ≤ d → holds ((σ (m + 1 + k)).pc i) ≠ []) ∧
    RoundsOk (σ n).heap (othersNew σ α i (m + 1) d) ((σ n).pc i)

theorem RoundsOk.other {s s' : Heap V} {k : Nat} {c : Pc V} (g : Grows s s') (ha : ∀ n, n ∈ holds c → Al s n) {e : Nat}
    (hp : ∀ n, n ∈ holds c → (s'.node n).parent = (s.node n).parent ∨ e = 1) (h : RoundsOk s k c) : RoundsOk s' (k + e) c := by
  cases c with
  | par c =>
    have h : c.rounds ≤ (s.node c.l).ht + k := h
    show c.rounds ≤ (s'.node c.l).ht + (k + e)
    rw [g.ht _ (ha _ (by simp [holds]))]; omega
  | lck c p =>
    have h : c.rounds ≤ (s.node c.l).ht + k + (if (s.node c.l).parent = p then 1 else 0) := h
    show c.rounds ≤ (s'.node c.l).ht + (k + e) + (if (s'.node c.l).parent = p then 1 else 0)
    rw [g.ht _ (ha _ (by simp [holds]))]
    rcases hp c.l (by simp [holds]) with q | q
    · rw [q]; omega
    · split at h <;> split <;> omega
  | rechk c p =>
    have h : c.rounds ≤ (s.node c.l).ht + k + (if (s.node c.l).parent = p then 1 else 0) := h
    show c.rounds ≤ (s'.node c.l).ht + (k + e) + (if (s'.node c.l).parent = p then 1 else 0)
    rw [g.ht _ (ha _ (by simp [holds]))]
    rcases hp c.l (by simp [holds]) with q | q
    · rw [q]; omega
    · split at h <;> split <;> omega
  | ins c p todo => trivial
  | _ => exact h.elim

/-- A step of the propagation itself. -/
theorem RoundsOk.own {strict main : Bool} {s : Heap V} {O B : Nat → Prop} {c : Pc V} {k : Nat} (P : Pre main s c O B)
    (h : RoundsOk s k c) (hn : holds (step strict main s c).2 ≠ []) (g : Grows s (step strict main s c).1) :
    RoundsOk (step strict main s c).1 k (step strict main s c).2 := by
  cases c with
  | par x =>
    have h : x.rounds ≤ (s.node x.l).ht + k := h
    simp only [step] at hn g ⊢
    split at hn
    · exact absurd rfl hn
    · rename_i hr
      rw [if_neg hr]
      split at hn
      · split at hn
        · exact absurd rfl hn
        · split at hn
          · split at hn <;> exact absurd rfl hn
          · exact absurd rfl hn
      · rename_i h0
        rw [if_neg h0]
        show x.rounds + 1 ≤ (s.node x.l).ht + k + (if (s.node x.l).parent = (s.node x.l).parent then 1 else 0)
        rw [if_pos rfl]; omega
  | lck x p =>
    have h' : x.rounds ≤ (s.node x.l).ht + k + (if (s.node x.l).parent = p then 1 else 0) := h
    simp only [step] at g ⊢
    split
    · exact h
    · show x.rounds ≤ ((s.mod p Node.lock).node x.l).ht + k + (if ((s.mod p Node.lock).node x.l).parent = p then 1 else 0)
      rw [mod_node]
      split
      · rename_i e; rw [e] at h'; exact h'
      · exact h'
  | rechk x p =>
    have h' : x.rounds ≤ (s.node x.l).ht + k + (if (s.node x.l).parent = p then 1 else 0) := h
    obtain ⟨h1, h2, h3, hs⟩ := P.ok
    have hB : ¬ B p := fun hb => (P.hB _ hb).2.2 (by simp [holds])
    have hbp := P.H.same p h2 (by intro h; rcases h with h | h; exact hB h; exact h)
    by_cases h5 : (s.node x.l).parent = p
    · rw [if_pos h5] at h'
      simp only [step, if_neg (fun q : (s.node x.l).parent ≠ p => q h5)] at hn g ⊢
      have h0 : (s.node x.l).parent ≠ 0 := by rw [h5]; have := h2.1; omega
      obtain ⟨m1, m2, j, m3, m4⟩ := P.H.par x.l h1.al h0
      rw [h5, ← hbp] at m3 m4
      cases hi : findChild (s.node p).arr x.l 0 ((s.node p).arr.nkeys + 1) with
      | none => exact absurd m4 (findChild_none hi j (by omega) (by omega))
      | some idx =>
        simp only [hi] at hn g ⊢
        split
        · trivial
        · rename_i hlt
          rw [if_neg hlt] at g
          show x.rounds ≤ ((splitInode s x p idx).1.node p).ht + k
          have := g.ht p h2
          simp only at this
          rw [this, h3]; omega
    · rw [if_neg h5] at h'
      simp only [step, if_pos (show (s.node x.l).parent ≠ p from h5)] at hn g ⊢
      show x.rounds ≤ ((s.mod p Node.unlock).node x.l).ht + k
      have := g.ht _ h1.al
      rw [this]; omega
  | ins x p todo =>
    cases todo with
    | nil => exact absurd rfl hn
    | cons st todo => trivial
  | _ => exact h.elim

theorem sect_par {strict main : Bool} {s : Heap V} {c : Pc V} (h : holds c = []) (hn : holds (step strict main s c).2 ≠ []) :
    (∃ o r l, c = .sect o r l) ∧ ∃ x, (step strict main s c).2 = .par x ∧ x.rounds = 0 := by
  cases c with
  | sect o r l =>
    cases o with
    | get t => exact absurd rfl hn
    | insert t v =>
      simp only [step] at hn ⊢
      refine ⟨⟨_, _, _, rfl⟩, ?_⟩
      split at hn
      · exact absurd rfl hn
      · rename_i c1
        rw [if_neg c1]
        split at hn
        · exact absurd rfl hn
        · rename_i c2
          rw [if_neg c2]
          cases c3 : lookup t (s.node l).ents with
          | some old => simp only [c3] at hn; exact absurd rfl hn
          | none =>
            simp only [c3] at hn ⊢
            split at hn
            · exact absurd rfl hn
            · rename_i c4; rw [if_neg c4]; exact ⟨_, rfl, rfl⟩
  | climb o p => simp only [step] at hn; split at hn <;> exact absurd rfl hn
  | stab o r p =>
    simp only [step] at hn
    split at hn
    · exact absurd rfl hn
    · split at hn
      · cases o <;> exact absurd rfl hn
      · exact absurd rfl hn
  | cmp o r p w a b =>
    simp only [step] at hn
    split at hn
    · split at hn
      · exact absurd rfl hn
      · split at hn <;> exact absurd rfl hn
    · exact absurd rfl hn
  | chld o r p w i => simp only [step] at hn; split at hn <;> exact absurd rfl hn
  | chk o r p w i => simp only [step] at hn; split at hn <;> exact absurd rfl hn
  | chk2 o r p w => simp only [step] at hn; split at hn <;> exact absurd rfl hn
  | look o l =>
    simp only [step] at hn
    split at hn
    · exact absurd rfl hn
    · split at hn <;> exact absurd rfl hn
  | nxt o l => simp only [step] at hn; split at hn <;> exact absurd rfl hn
  | adv o r k l =>
    cases k with
    | zero => exact absurd rfl hn
    | succ k => simp only [step] at hn; split at hn <;> exact absurd rfl hn
  | par x => cases h
  | lck x p => cases h
  | rechk x p => cases h
  | ins x p t => cases h
  | _ => exact absurd rfl hn

theorem since {strict main : Bool} {σ : Nat → St V} {α : Nat → Act V} (E : Exec strict main σ α) (i : Nat) : ∀ n,
    (∀ j, ¬ Failed (σ n) j) → holds ((σ n).pc i) ≠ [] → ∃ m d, Since σ α i n m d
  | 0, _, h => by rw [E.start] at h; exact absurd rfl h
  | n + 1, hf, h => by
    have hn : ∀ j, ¬ Failed (σ n) j := fun j hj => hf j (by rw [E.next]; exact failed_act hj _)
    have I := exec_inv E n hn
    have W := exec_weak E n
    have en := E.next n
    have ext : ∀ m d, Since σ α i n m d →
        RoundsOk (σ (n + 1)).heap (othersNew σ α i (m + 1) (d + 1)) ((σ (n + 1)).pc i) → Since σ α i (n + 1) m (d + 1) := by
      rintro m d ⟨a, b, c, e, f⟩ r
      refine ⟨by omega, b, c, fun k hk => ?_, r⟩
      by_cases q : k ≤ d
      · exact e k q
      · have : m + 1 + k = n + 1 := by omega
        rw [this]; exact h
    by_cases own : α n = .run i
    · have e : (σ (n + 1)).pc i = (step strict main (σ n).heap ((σ n).pc i)).2 := by rw [en, own]; simp only [act, upd_same]
      have eh : (σ (n + 1)).heap = (step strict main (σ n).heap ((σ n).pc i)).1 := by rw [en, own]; rfl
      by_cases hh : holds ((σ n).pc i) = []
      · obtain ⟨s1, x, s2, s3⟩ := sect_par hh (by rw [← e]; exact h)
        refine ⟨n, 0, by omega, own, s1, fun k hk => ?_, ?_⟩
        · have : k = 0 := by omega
          subst this; exact h
        · rw [e, s2]
          show x.rounds ≤ _
          rw [s3]; omega
      · obtain ⟨m, d, S⟩ := since E i n hn hh
        refine ⟨m, d + 1, ext m d S ?_⟩
        obtain ⟨s1, s2, s3, s4, s5⟩ := S
        have : othersNew σ α i (m + 1) (d + 1) = othersNew σ α i (m + 1) d := by
          simp only [othersNew]
          rw [if_neg]; rfl
          rintro ⟨q, _⟩
          rw [← s1] at q; exact q own
        rw [this, e, eh]
        exact RoundsOk.own (I.pre i) s5 (by rw [← e]; exact h) (step_weak W.H (W.ok i) (W.hold i)).g
    · have e : (σ (n + 1)).pc i = (σ n).pc i := by
        rw [en]
        cases ha : α n with
        | call j o =>
          simp only [act]
          by_cases cj : i = j
          · subst cj
            rw [en, ha] at h
            simp only [act] at h
            split
            · rename_i q; simp only [q, upd_same] at h; exact absurd rfl h
            · rename_i q; simp only [q, upd_same] at h; exact absurd rfl h
            · rfl
          · split
            · simp only [upd_ne _ _ _ cj]
            · simp only [upd_ne _ _ _ cj]
            · rfl
        | run j =>
          have cj : i ≠ j := by intro q; subst q; exact own ha
          simp only [act, upd_ne _ _ _ cj]
      rw [e] at h
      obtain ⟨m, d, S⟩ := since E i n hn h
      rw [← e] at h
      refine ⟨m, d + 1, ext m d S ?_⟩
      obtain ⟨s1, s2, s3, s4, s5⟩ := S
      rw [e]
      simp only [othersNew]
      have g : Grows (σ n).heap (σ (n + 1)).heap := by
        rw [en]
        cases ha : α n with
        | call j o => simp only [act]; split <;> exact Grows.refl _
        | run j => exact (step_weak W.H (W.ok j) (W.hold j)).g
      refine RoundsOk.other g (fun n hn => (W.hold i n hn).1) (fun l hl => ?_) s5
      rw [← s1]
      cases ha : α n with
      | call j o =>
        left
        rw [en, ha]
        simp only [act]; split <;> rfl
      | run j =>
        have cj : j ≠ i := by intro q; subst q; exact own ha
        have hj : l ∉ holds ((σ n).pc j) := fun q => cj (W.excl j i l q hl)
        rcases parent_kept (strict := strict) (main := main) (fun o r q e => by have := W.ok j; rw [e] at this; exact this.2.2.2) hj with q | q
        · left; rw [en, ha]; exact q
        · right
          rw [if_pos]
          refine ⟨by intro z; injection z with z; exact cj z, ?_⟩
          rw [en, ha]; exact q

end Verif.Index
