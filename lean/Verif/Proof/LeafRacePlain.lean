import Verif.Proof.LeafRaceTrace
/-!
# Lookups against plain inserts and updates

Without conversions of a slot into a sublayer the published slots of a leaf only grow, and a published slot changes
nothing but its value.  So lookups are right whatever the version counters do.
-/
namespace Verif.Race
open Verif.Perm (size get back insertFromBack)
open Verif.Tree
open Verif.Internode (upd)
variable {V : Type}

/-- A cell that is in use, and whether it is a sublayer. -/
def CellLe (c c' : Cell V) : Prop :=
  (∃ v v', c = .val v ∧ c' = .val v') ∨ (∃ q, c = .layer q ∧ c' = .layer q)

/-- Published slots of `b` are published in `b'`, with the same key. -/
def Grows (b b' : Leaf V) : Prop := ∀ j, j < size 5 b.perm →
  (∃ j', j' < size 5 b'.perm ∧ get 5 b'.perm j' = get 5 b.perm j) ∧
  b'.ikey (get 5 b.perm j) = b.ikey (get 5 b.perm j) ∧ b'.klx (get 5 b.perm j) = b.klx (get 5 b.perm j) ∧
  b'.ksuf (get 5 b.perm j) = b.ksuf (get 5 b.perm j) ∧ CellLe (b.cell (get 5 b.perm j)) (b'.cell (get 5 b.perm j))

theorem CellLe.trans {a b c : Cell V} (h : CellLe a b) (h' : CellLe b c) : CellLe a c := by
  rcases h with ⟨v, v', rfl, rfl⟩ | ⟨q, rfl, rfl⟩ <;> rcases h' with ⟨w, w', e, rfl⟩ | ⟨q', e, rfl⟩ <;> cases e
  · exact Or.inl ⟨_, _, rfl, rfl⟩
  · exact Or.inr ⟨_, rfl, rfl⟩

theorem Grows.trans {a b c : Leaf V} (h : Grows a b) (h' : Grows b c) : Grows a c := by
  intro j hj
  obtain ⟨⟨j1, h1, e1⟩, h2, h3, h4, h5⟩ := h j hj
  obtain ⟨⟨j2, g1, e2⟩, g2, g3, g4, g5⟩ := h' j1 h1
  rw [e1] at e2 g2 g3 g4 g5
  exact ⟨⟨j2, g1, e2⟩, g2.trans h2, g3.trans h3, g4.trans h4, h5.trans g5⟩

theorem BodyOK.used {b : Leaf V} {lo : Nat} {hi : Option Nat} (hb : BodyOK b lo hi) {j : Nat} (hj : j < size 5 b.perm) :
    (∃ v, b.cell (get 5 b.perm j) = .val v) ∨ ∃ q, b.cell (get 5 b.perm j) = .layer q := by
  cases hb.ok j hj with
  | inline hk v hc => exact Or.inl ⟨v, hc⟩
  | suffix hk v hc => exact Or.inl ⟨v, hc⟩
  | layer hk q hc => exact Or.inr ⟨q, hc⟩

theorem CellLe.refl {b : Leaf V} {lo : Nat} {hi : Option Nat} (hb : BodyOK b lo hi) {j : Nat} (hj : j < size 5 b.perm) :
    CellLe (b.cell (get 5 b.perm j)) (b.cell (get 5 b.perm j)) := by
  rcases BodyOK.used hb hj with ⟨v, h⟩ | ⟨q, h⟩ <;> rw [h]
  · exact Or.inl ⟨_, _, rfl, rfl⟩
  · exact Or.inr ⟨_, rfl, rfl⟩

theorem Grows.refl {b : Leaf V} {lo : Nat} {hi : Option Nat} (hb : BodyOK b lo hi) : Grows b b :=
  fun j hj => ⟨⟨j, hj, rfl⟩, rfl, rfl, rfl, CellLe.refl hb hj⟩

/-- The leaf is quiet, or in the middle of a plain insert or update; in any case it is well formed. -/
inductive NC (s : St V) : Prop
  | free (ht : s.todo = []) (hb : BodyOK s.b 0 none) (hw : NV.Idle s.word)
  | busy (b0 : Leaf V) (op : WOp V) (done : List (Micro V)) (hb : BodyOK b0 0 none) (hk : KeyOK op.k)
      (hp : PlanSpec b0 op (done ++ s.todo)) (he : s.b = runM b0 done) (u : NV.W) (hu : NV.Idle u)
      (hw : s.word = NV.lockedOf u) (hn : ¬ IsConf (done ++ s.todo))

theorem NC.winv {s : St V} (h : NC s) : WInv s := by
  cases h with
  | free ht hb hw => exact .free ht hb hw
  | busy b0 op done hb hk hp he u hu hw hn => exact .busy b0 op done hb hk hp he u hu hw

theorem NC.body {s : St V} (h : NC s) : BodyOK s.b 0 none := by
  cases h with
  | free ht hb hw => exact hb
  | busy b0 op done hb hk hp he u hu hw hn =>
    rw [he]
    by_cases ht : s.todo = []
    · rw [ht, List.append_nil] at hp
      exact plan_body hb hk hp
    · rcases reads_perm hb hk hp with h | ⟨h, _⟩
      · have hr : ∀ j, j < b0.n → (runM b0 done).ent j = b0.ent j := by
          intro j hj
          obtain ⟨h1, h2⟩ := reads hb hp hj
          show entAt _ (get 5 (runM b0 done).perm j) = entAt _ _
          rw [h]
          cases h2 with
          | same g1 g2 g3 _ => unfold entAt Leaf.suf; rw [h1, g1, g2, g3]
          | upd h => exact absurd h ht
          | gone q hq => exact absurd ⟨_, _, hq⟩ hn
          | layer q hq => exact absurd ⟨_, _, hq⟩ hn
        have hn' : (runM b0 done).n = b0.n := by unfold Leaf.n; rw [h]
        refine ⟨by rw [h]; exact hb.perm, ?_, ?_, fun _ _ => Nat.zero_le _, fun _ _ => by simp, ?_⟩
        · intro i j hij hj
          rw [hn'] at hj
          rw [hr i (by omega), hr j hj]; exact hb.sorted i j hij hj
        · intro i j hij hj
          rw [hn'] at hj
          rw [hr i (by omega), hr j hj]; exact hb.dist i j hij hj
        · intro j hj
          rw [hn'] at hj
          rw [hr j hj]; exact hb.ok j hj
      · exact absurd h ht

theorem runM_grows {b0 : Leaf V} (hb : BodyOK b0 0 none) {op : WOp V} (hk : KeyOK op.k) {l : List (Micro V)}
    (hp : PlanSpec b0 op l) (hn : ¬ IsConf l) : Grows b0 (runM b0 l) := by
  intro j hj
  have h := reads (done := l) (todo := []) hb (by rw [List.append_nil]; exact hp) hj
  obtain ⟨h1, h2⟩ := h
  refine ⟨?_, h1, ?_⟩
  · cases hp with
    | none => exact ⟨j, hj, rfl⟩
    | update => exact ⟨j, hj, rfl⟩
    | conflict => exact absurd ⟨_, _, rfl⟩ hn
    | insert p1 pos hs hpos hp1 hz hg h1 h2 h3 =>
      rw [runM_insert]
      have hsz : size 5 (insertFromBack 5 24 p1 pos).1 = b0.n + 1 := by
        rw [Verif.Perm.size_insertFromBack Verif.Perm.params24 p1 (by omega) (by omega), hz]
      have hj : j < b0.n := hj
      by_cases c : j < pos
      · refine ⟨j, by show j < size 5 (insertFromBack 5 24 p1 pos).1; omega, ?_⟩
        show get 5 (insertFromBack 5 24 p1 pos).1 j = _
        rw [Verif.Perm.get_insertFromBack Verif.Perm.params24 p1 (by omega) (by omega) (by omega), if_pos c, hg j hj]
      · refine ⟨j + 1, by show j + 1 < size 5 (insertFromBack 5 24 p1 pos).1; omega, ?_⟩
        show get 5 (insertFromBack 5 24 p1 pos).1 (j + 1) = _
        rw [Verif.Perm.get_insertFromBack Verif.Perm.params24 p1 (by omega) (by omega) (by omega), if_neg (by omega),
          if_neg (by omega), Nat.add_sub_cancel, hg j hj]
  · cases h2 with
    | same g1 g2 g3 _ => exact ⟨g1, g2, by rw [g3]; exact CellLe.refl hb hj⟩
    | upd _ _ g1 g2 v v' hv hv' _ => exact ⟨g1, g2, by rw [hv, hv']; exact Or.inl ⟨_, _, rfl, rfl⟩⟩
    | gone q hq => exact absurd ⟨_, _, by rw [List.append_nil] at hq; exact hq⟩ hn
    | layer q hq => exact absurd ⟨_, _, by rw [List.append_nil] at hq; exact hq⟩ hn

theorem NC.step {hasPrev : Bool} {s s' : St V} (h : NC s) (hs : Step hasPrev s s') (hc : ¬ IsConf s'.todo) :
    NC s' ∧ Grows s.b s'.b := by
  have hB := h.body
  cases hs with
  | start i k hi =>
    refine ⟨?_, Grows.refl hB⟩
    cases h with
    | free ht hb hw => exact .free ht hb hw
    | busy b0 op done hb hk hp he u hu hw hn => exact .busy b0 op done hb hk hp he u hu hw hn
  | read i =>
    refine ⟨?_, Grows.refl hB⟩
    cases h with
    | free ht hb hw => exact .free ht hb hw
    | busy b0 op done hb hk hp he u hu hw hn => exact .busy b0 op done hb hk hp he u hu hw hn
  | lock op hl hk =>
    refine ⟨?_, Grows.refl hB⟩
    cases h with
    | free ht hb hw => exact .busy s.b op [] hb hk (plan_spec hb hasPrev op) rfl s.word hw rfl hc
    | busy b0 op' done hb hk' hp he u hu hw hn => rw [hw, locked_not_lockable hu] at hl; cases hl
  | unlock ht hl =>
    refine ⟨?_, Grows.refl hB⟩
    cases h with
    | free ht hb hw => rw [idle_unlocked hw] at hl; cases hl
    | busy b0 op done hb hk hp he u hu hw hn =>
      refine .free ht hB ?_
      show NV.Idle (NV.unlockOf s.word)
      rw [hw]; exact unlock_idle hu
  | store m ms hm =>
    cases h with
    | free ht hb hw => rw [ht] at hm; cases hm
    | busy b0 op done hb hk hp he u hu hw hn =>
      have e : done ++ s.todo = (done ++ [m]) ++ ms := by rw [hm]; simp
      have e1 : m.app s.b = runM b0 (done ++ [m]) := by rw [runM_append, ← he]; rfl
      refine ⟨.busy b0 op (done ++ [m]) hb hk (by rw [← e]; exact hp) e1 u hu hw (by rw [← e]; exact hn), ?_⟩
      show Grows s.b (m.app s.b)
      by_cases hms : ms = []
      · -- before the last store nothing is visible
        subst hms
        rw [List.append_nil] at e
        rw [e1, ← e]
        have hG := runM_grows hb hk hp hn
        have hne : s.todo ≠ [] := by rw [hm]; simp
        rcases reads_perm hb hk hp with h | ⟨h, _⟩
        · intro j hj
          rw [he, h] at hj ⊢
          obtain ⟨h1, h2⟩ := reads hb hp hj
          have hG' := hG j hj
          cases h2 with
          | same g1 g2 g3 _ => rw [h1, g1, g2, g3]; exact hG'
          | upd h => exact absurd h hne
          | gone q hq => exact absurd ⟨_, _, hq⟩ hn
          | layer q hq => exact absurd ⟨_, _, hq⟩ hn
        · exact absurd h hne
      · have hp' : PlanSpec b0 op ((done ++ [m]) ++ ms) := by rw [← e]; exact hp
        have hne : s.todo ≠ [] := by rw [hm]; simp
        rw [e1]
        rcases reads_perm hb hk hp with h | ⟨h, _⟩
        · rcases reads_perm hb hk hp' with g | ⟨g, _⟩
          · intro j hj
            have hcl := CellLe.refl hB hj
            rw [he, h] at hj hcl ⊢
            rw [g]
            obtain ⟨h1, h2⟩ := reads hb hp hj
            obtain ⟨g1, g2⟩ := reads hb hp' hj
            cases h2 with
            | same a1 a2 a3 _ =>
              cases g2 with
              | same c1 c2 c3 _ =>
                refine ⟨⟨j, hj, rfl⟩, g1.trans h1.symm, c1.trans a1.symm, c2.trans a2.symm, ?_⟩
                rw [c3, ← a3]; exact hcl
              | upd h => exact absurd h hms
              | gone q hq => exact absurd ⟨_, _, e.trans hq⟩ hn
              | layer q hq => exact absurd ⟨_, _, e.trans hq⟩ hn
            | upd h => exact absurd h hne
            | gone q hq => exact absurd ⟨_, _, hq⟩ hn
            | layer q hq => exact absurd ⟨_, _, hq⟩ hn
          · exact absurd g hms
        · exact absurd h hne

/-- The leaf said `r` about `k` at some moment between `n0` and `n`. -/
def Saw (σ : Nat → St V) (n0 n : Nat) (k : Key) (r : Out V) : Prop := ∃ m, n0 ≤ m ∧ m ≤ n ∧ Sees (σ m).b k r

theorem Saw.mono {σ : Nat → St V} {n0 n n' : Nat} (h : n ≤ n') {k : Key} {r : Out V} (hs : Saw σ n0 n k r) :
    Saw σ n0 n' k r := by
  obtain ⟨m, h1, h2, h3⟩ := hs
  exact ⟨m, h1, by omega, h3⟩

/-- The reader loaded `p` at step `m`, and did not find `k` before position `i`. -/
def From (σ : Nat → St V) (n0 n : Nat) (k : Key) (p : BitVec 128) (i : Nat) (P : Nat → Prop) : Prop :=
  ∃ m, n0 ≤ m ∧ m ≤ n ∧ (σ m).b.perm = p ∧ BodyOK (σ m).b 0 none ∧ Grows (σ m).b (σ n).b ∧
    (∀ j, j < i → j < size 5 p → ¬ SlotIs (σ m).b (get 5 p j) k ∧ ¬ SlotLeads (σ m).b (get 5 p j) k) ∧ P m

/-- What a reader that passed `stable` knows. -/
def Know (σ : Nat → St V) (n0 n : Nat) : RPc V → Prop
  | .ikey k _ p i => From σ n0 n k p i fun _ => True
  | .klx k _ p i => From σ n0 n k p i fun m => i < size 5 p ∧ (σ m).b.ikey (get 5 p i) = k.ikey
  | .ptr k _ p i x => From σ n0 n k p i fun m => i < size 5 p ∧ (σ m).b.ikey (get 5 p i) = k.ikey ∧
      x = (σ m).b.klx (get 5 p i)
  | .sufKlx k _ p i c => From σ n0 n k p i fun m => i < size 5 p ∧ (σ m).b.ikey (get 5 p i) = k.ikey ∧
      (σ m).b.klx (get 5 p i) = 64 ∧ searchKlx k = 64 ∧
      ∃ m', m ≤ m' ∧ m' ≤ n ∧ Grows (σ m).b (σ m').b ∧ (σ m').b.cell (get 5 p i) = c
  | .suf k _ p i c => From σ n0 n k p i fun m => i < size 5 p ∧ (σ m).b.ikey (get 5 p i) = k.ikey ∧
      (σ m).b.klx (get 5 p i) = 64 ∧ searchKlx k = 64 ∧
      ∃ m', m ≤ m' ∧ m' ≤ n ∧ Grows (σ m).b (σ m').b ∧ (σ m').b.cell (get 5 p i) = c
  | .check k _ (some (x, c)) => Saw σ n0 n k (interp x c)
  | .check k _ none => Saw σ n0 n k .absent
  | .dirty k => Saw σ n0 n k .absent
  | .done k r => Saw σ n0 n k r
  | _ => True

theorem From.mono {σ : Nat → St V} {n0 n n' : Nat} (hn : n ≤ n') (hg : Grows (σ n).b (σ n').b) {k : Key} {p : BitVec 128}
    {i : Nat} {P P' : Nat → Prop} (hP : ∀ m, P m → P' m) (h : From σ n0 n k p i P) : From σ n0 n' k p i P' := by
  obtain ⟨m, h1, h2, h3, h4, h5, h6, h7⟩ := h
  exact ⟨m, h1, by omega, h3, h4, h5.trans hg, h6, hP _ h7⟩

theorem Know.mono {σ : Nat → St V} {n0 n n' : Nat} (hn : n ≤ n') (hg : Grows (σ n).b (σ n').b) {pc : RPc V}
    (h : Know σ n0 n pc) : Know σ n0 n' pc := by
  cases pc with
  | ikey k v p i => exact From.mono hn hg (fun m h => h) h
  | klx k v p i => exact From.mono hn hg (fun m h => h) h
  | ptr k v p i x => exact From.mono hn hg (fun m h => h) h
  | sufKlx k v p i c =>
    refine From.mono hn hg (fun m => ?_) h
    rintro ⟨h1, h2, h3, h4, m', a, b, c⟩
    exact ⟨h1, h2, h3, h4, m', a, by omega, c⟩
  | suf k v p i c =>
    refine From.mono hn hg (fun m => ?_) h
    rintro ⟨h1, h2, h3, h4, m', a, b, c⟩
    exact ⟨h1, h2, h3, h4, m', a, by omega, c⟩
  | check k v sn =>
    cases sn with
    | none => exact Saw.mono hn h
    | some y => obtain ⟨x, c⟩ := y; exact Saw.mono hn h
  | dirty k => exact Saw.mono hn h
  | done k r => exact Saw.mono hn h
  | _ => trivial

/-- Does the reader hold a snapshot or later? -/
def RPc.started : RPc V → Bool
  | .idle => false
  | .stable _ => false
  | _ => true

theorem From.next {σ : Nat → St V} {n0 n : Nat} {k : Key} {p : BitVec 128} {i : Nat} {P : Nat → Prop}
    (h : From σ n0 n k p i P)
    (hp : ∀ m, (σ m).b.perm = p → BodyOK (σ m).b 0 none → Grows (σ m).b (σ n).b → P m → i < size 5 p →
      ¬ SlotIs (σ m).b (get 5 p i) k ∧ ¬ SlotLeads (σ m).b (get 5 p i) k) : From σ n0 n k p (i + 1) fun _ => True := by
  obtain ⟨m, h1, h2, h3, h4, h5, h6, h7⟩ := h
  refine ⟨m, h1, h2, h3, h4, h5, fun j hj hs => ?_, trivial⟩
  by_cases e : j = i
  · subst e; exact hp m h3 h4 h5 h7 hs
  · exact h6 j (by omega) hs

theorem slotIs_klx {b : Leaf V} {s : Nat} {k : Key} (h : SlotIs b s k) : b.klx s = searchKlx k := by
  obtain ⟨_, h2⟩ := h
  rcases searchKlx_cases k with ⟨c1, c2, _⟩ | ⟨c1, c2, c3, _⟩
  · rw [c1, if_pos rfl] at h2; omega
  · rw [c1] at h2; simp only [Bool.false_eq_true, if_false] at h2; omega

/-- A slot of an earlier published permutation that carries `k` makes the leaf say so. -/
theorem saw_slot {σ : Nat → St V} {n0 n m m' : Nat} {k : Key} {i : Nat} (h0 : n0 ≤ m) (h1 : m ≤ m') (h2 : m' ≤ n)
    (hb : BodyOK (σ m).b 0 none) (hg : Grows (σ m).b (σ m').b) (hi : i < size 5 (σ m).b.perm)
    (hs : SlotIs (σ m).b (get 5 (σ m).b.perm i) k ∨ SlotLeads (σ m).b (get 5 (σ m).b.perm i) k) :
    Saw σ n0 n k (interp ((σ m).b.klx (get 5 (σ m).b.perm i)) ((σ m').b.cell (get 5 (σ m).b.perm i))) := by
  obtain ⟨⟨j, hj, e⟩, g1, g2, g3, g4⟩ := hg i hi
  refine ⟨m', by omega, h2, ?_⟩
  have hcl := BodyOK.clean hb i hi
  rcases hs with hs | hs
  · have hlt := hs.lt
    unfold interp
    rw [if_neg (by unfold layerKeylenx; omega)]
    rcases g4 with ⟨v, v', c1, c2⟩ | ⟨q, c1, c2⟩
    · rw [c2]
      refine ⟨j, hj, ?_, by rw [e]; exact c2⟩
      rw [e]; simp only [SlotIs, g1, g2, g3]; exact hs
    · rw [c1] at hcl
      rcases hcl with h | ⟨h, _⟩ | ⟨_, v, h⟩
      · cases h
      · omega
      · cases h
  · have hge := hs.2.1
    unfold interp
    rw [if_pos (show layerKeylenx ≤ _ from hge)]
    rcases g4 with ⟨v, v', c1, c2⟩ | ⟨q, c1, c2⟩
    · rw [c1] at hcl
      rcases hcl with h | ⟨_, q, h⟩ | ⟨h, _⟩
      · cases h
      · cases h
      · omega
    · rw [c2]
      refine ⟨j, hj, ?_, by rw [e]; exact c2⟩
      rw [e]; simp only [SlotLeads, g1, g2]; exact hs

theorem rstep_ptr {b : Leaf V} {w : NV.W} {k : Key} {v : NV.W} {p : BitVec 128} {i x : Nat}
    (hn : b.cell (get 5 p i) ≠ .null) : rstep b w (.ptr k v p i x) =
      if x = searchKlx k then
        if x = ksufKeylenx then .sufKlx k v p i (b.cell (get 5 p i)) else .check k v (some (x, b.cell (get 5 p i)))
      else if layerKeylenx ≤ x ∧ k.hasSuffix = true then .check k v (some (x, b.cell (get 5 p i)))
      else .ikey k v p (i + 1) := by
  simp only [rstep]

/-- A reader's own load. -/
theorem Know.read {σ : Nat → St V} {n0 n : Nat} (hn : n0 ≤ n) (hN : NC (σ n)) {pc : RPc V} (hs : pc.started = true)
    (h : Know σ n0 n pc) : Know σ n0 n (rstep (σ n).b (σ n).word pc) := by
  have hB := hN.body
  cases pc with
  | idle => cases hs
  | stable k => cases hs
  | done k r => exact h
  | dirty k =>
    simp only [rstep]
    split
    · trivial
    · exact h
  | check k v sn =>
    simp only [rstep]
    split
    · trivial
    · split
      · exact h
      · exact h
  | perm k v =>
    exact ⟨n, hn, Nat.le_refl _, rfl, hB, Grows.refl hB, fun j hj => absurd hj (by omega), trivial⟩
  | ikey k v p i =>
    simp only [rstep]
    split
    · rename_i hi
      split
      · rename_i he
        obtain ⟨m, h1, h2, h3, h4, h5, h6, _⟩ := h
        refine ⟨m, h1, h2, h3, h4, h5, h6, hi, ?_⟩
        have := (h5 i (by rw [h3]; exact hi)).2.1
        rw [h3] at this
        rw [← this]; exact he
      · rename_i he
        refine h.next (fun m h3 h4 h5 _ hs => ?_)
        have := (h5 i (by rw [h3]; exact hi)).2.1
        rw [h3] at this
        rw [this] at he
        exact ⟨fun h => he h.1, fun h => he h.1⟩
    · rename_i hi
      obtain ⟨m, h1, h2, h3, h4, h5, h6, _⟩ := h
      refine ⟨m, h1, h2, ?_⟩
      intro j hj hne
      rw [h3] at hj ⊢
      exact h6 j (by omega) hj
  | klx k v p i =>
    simp only [rstep]
    obtain ⟨m, h1, h2, h3, h4, h5, h6, hi, he⟩ := h
    refine ⟨m, h1, h2, h3, h4, h5, h6, hi, he, ?_⟩
    have := (h5 i (by rw [h3]; exact hi)).2.2.1
    rw [h3] at this
    exact this
  | ptr k v p i x =>
    have hnn : (σ n).b.cell (get 5 p i) ≠ .null := by
      obtain ⟨m, h1, h2, h3, h4, h5, h6, hi, he, hx⟩ := h
      have := (h5 i (by rw [h3]; exact hi)).2.2.2.2
      rw [h3] at this
      rcases this with ⟨v, v', _, c2⟩ | ⟨q, _, c2⟩ <;> rw [c2] <;> simp
    rw [rstep_ptr hnn]
    by_cases hx1 : x = searchKlx k
    · by_cases hx2 : x = ksufKeylenx
      · have hx2' : x = 64 := hx2
        have : Know σ n0 n (.sufKlx k v p i ((σ n).b.cell (get 5 p i))) := by
          obtain ⟨m, h1, h2, h3, h4, h5, h6, hi, he, hx⟩ := h
          exact ⟨m, h1, h2, h3, h4, h5, h6, hi, he, by omega, by omega, n, h2, Nat.le_refl _, h5, rfl⟩
        rw [if_pos hx1, if_pos hx2]; exact this
      · have : Know σ n0 n (.check k v (some (x, (σ n).b.cell (get 5 p i)))) := by
          obtain ⟨m, h1, h2, h3, h4, h5, h6, hi, he, hx⟩ := h
          subst h3
          have hx2' : x ≠ 64 := hx2
          have : SlotIs (σ m).b (get 5 (σ m).b.perm i) k := by
            refine ⟨he, ?_⟩
            rcases searchKlx_cases k with ⟨c1, c2, _⟩ | ⟨c1, c2, c3, _⟩
            · omega
            · rw [c1]; simp only [Bool.false_eq_true, if_false]; omega
          have := saw_slot h1 h2 (Nat.le_refl n) h4 h5 hi (Or.inl this)
          rw [← hx] at this
          exact this
        rw [if_pos hx1, if_neg hx2]; exact this
    · by_cases hx2 : layerKeylenx ≤ x ∧ k.hasSuffix = true
      · have : Know σ n0 n (.check k v (some (x, (σ n).b.cell (get 5 p i)))) := by
          obtain ⟨m, h1, h2, h3, h4, h5, h6, hi, he, hx⟩ := h
          subst h3
          have : SlotLeads (σ m).b (get 5 (σ m).b.perm i) k := ⟨he, by rw [← hx]; exact hx2.1, hx2.2⟩
          have := saw_slot h1 h2 (Nat.le_refl n) h4 h5 hi (Or.inr this)
          rw [← hx] at this
          exact this
        rw [if_neg hx1, if_pos hx2]; exact this
      · have : Know σ n0 n (.ikey k v p (i + 1)) := by
          refine From.next h (fun m h3 h4 h5 hP hs => ?_)
          obtain ⟨hi, he, hx⟩ := hP
          refine ⟨fun h => hx1 ?_, fun h => hx2 ⟨?_, h.2.2⟩⟩
          · rw [hx]; exact slotIs_klx h
          · rw [hx]; exact h.2.1
        rw [if_neg hx1, if_neg hx2]; exact this
  | sufKlx k v p i c =>
    simp only [rstep]
    split
    · exact h
    · rename_i hx
      refine From.next h (fun m h3 h4 h5 hP hs => ?_)
      obtain ⟨hi, he, hk, _⟩ := hP
      have := (h5 i (by rw [h3]; exact hi)).2.2.1
      rw [h3] at this
      exact absurd (this.trans hk) hx
  | suf k v p i c =>
    simp only [rstep]
    split
    · rename_i hx
      obtain ⟨m, h1, h2, h3, h4, h5, h6, hi, he, hk, hsk, m', a1, a2, a3, a4⟩ := h
      subst h3
      have h7 := (h5 i hi).2.2.2.1
      rw [hx] at h7
      have : SlotIs (σ m).b (get 5 (σ m).b.perm i) k := by
        refine ⟨he, ?_⟩
        rcases searchKlx_cases k with ⟨c1, c2, _⟩ | ⟨c1, c2, c3, _⟩
        · rw [c1, if_pos rfl]; exact ⟨hk, h7.symm⟩
        · omega
      have := saw_slot h1 a1 a2 h4 a3 hi (Or.inl this)
      rw [hk, a4] at this
      exact this
    · rename_i hx
      refine From.next h (fun m h3 h4 h5 hP hs => ?_)
      obtain ⟨hi, he, hk, hsk, _⟩ := hP
      have h7 := (h5 i (by rw [h3]; exact hi)).2.2.2.1
      rw [h3] at h7
      rw [h7] at hx
      refine ⟨fun h => hx ?_, fun h => ?_⟩
      · rcases searchKlx_cases k with ⟨c1, c2, _⟩ | ⟨c1, c2, c3, _⟩
        · have := h.2; rw [c1, if_pos rfl] at this; exact this.2
        · omega
      · have := h.2.1; omega

theorem plain_inv {hasPrev : Bool} {σ : Nat → St V} {N : Nat} (he : Exec hasPrev σ N) (h0 : WInv (σ 0))
    {i n0 n1 : Nat} (hN : n1 ≤ N) {k : Key} {r : Out V} (hl : Lookup σ i n0 n1 k r)
    (hc : ∀ n, n0 ≤ n → n ≤ n1 → ¬ IsConf (σ n).todo) :
    ∀ d, n0 + d ≤ n1 → ((σ (n0 + d)).rd i).key = some k ∧
      (((σ (n0 + d)).rd i).started = true → NC (σ (n0 + d)) ∧ Know σ n0 (n0 + d) ((σ (n0 + d)).rd i)) := by
  intro d
  induction d with
  | zero => intro _; simp only [Nat.add_zero]; rw [hl.first]; exact ⟨rfl, fun h => (by cases h)⟩
  | succ d ih =>
    intro hd
    obtain ⟨hk, I⟩ := ih (by omega)
    have hnd := hl.during (n0 + d) (by omega) (by omega)
    have hW := exec_inv he h0 (n0 + d) (by omega)
    have st := he (n0 + d) (by omega)
    have hc' := hc (n0 + d + 1) (by omega) (by omega)
    have hni : (σ (n0 + d)).rd i ≠ .idle := by intro e; rw [e] at hk; cases hk
    rw [show n0 + (d + 1) = n0 + d + 1 by omega]
    have hother : (σ (n0 + d + 1)).rd i = (σ (n0 + d)).rd i → ((σ (n0 + d + 1)).rd i).key = some k ∧
      (((σ (n0 + d + 1)).rd i).started = true → NC (σ (n0 + d + 1)) ∧ Know σ n0 (n0 + d + 1) ((σ (n0 + d + 1)).rd i)) := by
      intro e
      rw [e]
      refine ⟨hk, fun hs => ?_⟩
      obtain ⟨a, b⟩ := I hs
      obtain ⟨a', g⟩ := a.step st hc'
      exact ⟨a', b.mono (by omega) g⟩
    have hown : (σ (n0 + d + 1)).rd i = rstep (σ (n0 + d)).b (σ (n0 + d)).word ((σ (n0 + d)).rd i) →
        (σ (n0 + d + 1)).b = (σ (n0 + d)).b → ((σ (n0 + d + 1)).rd i).key = some k ∧
      (((σ (n0 + d + 1)).rd i).started = true → NC (σ (n0 + d + 1)) ∧ Know σ n0 (n0 + d + 1) ((σ (n0 + d + 1)).rd i)) := by
      intro e eb
      rw [e]
      refine ⟨by rw [rstep_key]; exact hk, fun hs => ?_⟩
      by_cases hst : ((σ (n0 + d)).rd i).started = true
      · obtain ⟨a, b⟩ := I hst
        obtain ⟨a', g⟩ := a.step st hc'
        exact ⟨a', (b.read (by omega) a hst).mono (by omega) g⟩
      · -- it was waiting in `stable`
        have hrd : (σ (n0 + d)).rd i = .stable k := by
          revert hst hk hni
          cases (σ (n0 + d)).rd i <;> simp [RPc.started, RPc.key]
        rw [hrd] at hs ⊢
        simp only [rstep] at hs ⊢
        by_cases c : NV.isDirty (σ (n0 + d)).word = true
        · rw [if_pos c] at hs; cases hs
        · rw [if_neg c]
          have hNC : NC (σ (n0 + d)) := by
            cases hW with
            | free h1 h2 h3 => exact .free h1 h2 h3
            | busy b0 op done h1 h2 h3 h4 u h5 h6 => rw [h6, locked_dirty h5] at c; exact absurd rfl c
          exact ⟨(hNC.step st hc').1, trivial⟩
    generalize hσ : σ (n0 + d) = s at *
    generalize hσ' : σ (n0 + d + 1) = s' at *
    cases st with
    | start j k' hj =>
      apply hother
      by_cases e : i = j
      · subst e
        rcases hj with hj | ⟨_, _, hj⟩
        · exact absurd hj hni
        · exact absurd hj (hnd _ _)
      · show upd s.rd j _ i = _
        unfold upd; rw [if_neg e]
    | read j =>
      by_cases e : i = j
      · subst e
        apply hown
        · show upd s.rd i _ i = _
          unfold upd; rw [if_pos rfl]
        · rfl
      · apply hother
        show upd s.rd j _ i = _
        unfold upd; rw [if_neg e]
    | lock op hl hk => exact hother rfl
    | store m ms hm => exact hother rfl
    | unlock ht hl => exact hother rfl

theorem plain_saw {hasPrev : Bool} {σ : Nat → St V} {N : Nat} (he : Exec hasPrev σ N) (h0 : WInv (σ 0))
    {i n0 n1 : Nat} (hN : n1 ≤ N) {k : Key} {r : Out V} (hl : Lookup σ i n0 n1 k r)
    (hc : ∀ n, n0 ≤ n → n ≤ n1 → ¬ IsConf (σ n).todo) : Saw σ n0 n1 k r := by
  have h := plain_inv he h0 hN hl hc (n1 - n0) (by have := hl.le; omega)
  rw [show n0 + (n1 - n0) = n1 by have := hl.le; omega, hl.last] at h
  exact (h.2 rfl).2

end Verif.Race
