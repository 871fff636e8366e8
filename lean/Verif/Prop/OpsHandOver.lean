import Verif.Prop.OpsQuiet
set_option linter.unusedSimpArgs false
set_option linter.unusedVariables false
/-!
# C70: every value is handed back at most once, and none is lost

`insert` gives the value it replaces to the caller (generic.rs:1675-1703) and takes it out of the tree.  So no two calls may return the same value,
and a value that no call has returned has to be in the tree.
-/
namespace Verif.Ops
open Verif.Spec (Bytes)
variable {V : Type} {fixed strict : Bool} {τ : Nat → St V} {β : Nat → Option (Act V)} {N : Nat}

/-! ## What is said -/

/-- A call of `insert` that has returned: the thread, the step of the call and that of the return, the value put in and the value given back. -/
structure Put (V : Type) where
  thread : Nat
  call : Nat
  ret : Nat
  new : V
  old : Option V

/-- It is a call of `insert` with the key `d` in this execution, and it has returned before step `N`. -/
def Put.Of (τ : Nat → St V) (β : Nat → Option (Act V)) (d : Bytes) (N : Nat) (c : Put V) : Prop :=
  Call τ β c.thread (.insert d c.new) c.call c.ret c.old ∧ c.ret < N

/-- From `x` to `y`: the first call gives back `x`, each later one what the one before it has put in, and the last has put in `y`. -/
def Linked : Option V → List (Put V) → Option V → Prop
  | x, [], y => x = y
  | x, c :: cs, y => c.old = x ∧ Linked (some c.new) cs y

/-- `cs` are all inserts of `d` that have returned before step `N`, each once, in an order in which no call comes before one that had returned
when it was made; the first gives back nothing, each later one what the one before it has put in, and the last has put in `y`. -/
structure HandedOver (τ : Nat → St V) (β : Nat → Option (Act V)) (d : Bytes) (N : Nat) (cs : List (Put V)) (y : Option V) : Prop where
  once : cs.Nodup
  all : ∀ c, c ∈ cs ↔ c.Of τ β d N
  order : cs.Pairwise fun c c' => c.call < c'.ret
  link : Linked none cs y

/-- No insert of `d` is under way. -/
def NoneOpen (τ : Nat → St V) (β : Nat → Option (Act V)) (d : Bytes) (N : Nat) : Prop := ∀ i v a, ¬ Open τ β i (.insert d v) a N

/-! ## Proof -/

theorem Linked.append {x z y : Option V} {cs ds : List (Put V)} (h : Linked x cs z) (h' : Linked z ds y) : Linked x (cs ++ ds) y := by
  induction cs generalizing x with
  | nil => have : x = z := h; subst this; exact h'
  | cons c cs ih => exact ⟨h.1, ih h.2⟩

/-- Of two calls of a thread only one is under way at a time. -/
theorem Open.same {i a a' n : Nat} {o o' : Op V} (h : Open τ β i o a n) (h' : Open τ β i o' a' n) : a = a' ∧ o = o' := by
  have e : a = a' := by
    rcases Nat.lt_trichotomy a a' with g | g | g
    · have := h.busy a' g (Nat.le_of_lt h'.lt)
      rw [h'.free] at this; cases this
    · exact g
    · have := h'.busy a g (Nat.le_of_lt h.lt)
      rw [h.free] at this; cases this
  subst e
  have := h.call.symm.trans h'.call
  injection this with this
  injection this with _ this
  exact ⟨rfl, this⟩

theorem Open.sub {i a b n : Nat} {o : Op V} (h : Open τ β i o a b) (h1 : a < n) (h2 : n ≤ b) : Open τ β i o a n :=
  ⟨h.call, h.free, h1, fun m g1 g2 => h.busy m g1 (by omega)⟩

/-- Of two calls of a thread that are under way at the same time each is the other. -/
theorem Call.same {i a a' b b' n : Nat} {o o' : Op V} {r r' : Option V} (h : Call τ β i o a b r) (h' : Call τ β i o' a' b' r') (h1 : a < n) (h2 : n ≤ b)
    (h1' : a' < n) (h2' : n ≤ b') : a = a' ∧ o = o' ∧ b = b' ∧ r = r' := by
  obtain ⟨ea, eo⟩ := (h.busy.sub h1 h2).same (h'.busy.sub h1' h2')
  have eb : b = b' := by
    rcases Nat.lt_trichotomy b b' with g | g | g
    · have := h'.busy.busy (b + 1) (by omega) (by omega)
      rw [h.ends] at this; cases this
    · exact g
    · have := h.busy.busy (b' + 1) (by omega) (by omega)
      rw [h'.ends] at this; cases this
  subst eb
  have := h.ends.symm.trans h'.ends
  injection this with this
  exact ⟨ea, eo, rfl, this⟩

/-- Call `c` stores its value at step `m`. -/
structure Put.At (τ : Nat → St V) (β : Nat → Option (Act V)) (d : Bytes) (N : Nat) (c : Put V) (m : Nat) : Prop where
  of : c.Of τ β d N
  lt : c.call < m
  le : m ≤ c.ret
  run : Runs β c.thread m
  put : stored τ β m d = some c.new
  old : map τ β d m = c.old

theorem Put.At.inj (E : Exec fixed strict τ β) {d : Bytes} (C : Clean strict τ β N) {c c' : Put V} {m m' : Nat} (h : c.At τ β d N m)
    (h' : c'.At τ β d N m') : c = c' ↔ m = m' := by
  constructor
  · rintro rfl
    have := h.of.2
    exact (C59_insert_at_most_once E h.of.1.busy (Whole.Clean.sub C (by omega)) ⟨h.lt, h.le, h.run⟩ ⟨h'.lt, h'.le, h'.run⟩
      (by rw [h.put]; nofun) (by rw [h'.put]; nofun)).1
  · rintro rfl
    have ei : c.thread = c'.thread := by
      obtain ⟨y, qs, e⟩ := h.run
      obtain ⟨y', qs', e'⟩ := h'.run
      have := e.symm.trans e'
      injection this with this
      injection this
    obtain ⟨h1, h2, h3, h4, h5, h6⟩ := h
    obtain ⟨k1, k2, k3, k4, k5, k6⟩ := h'
    cases c
    cases c'
    simp only at ei h1 h2 h3 h4 h5 h6 k1 k2 k3 k4 k5 k6
    subst ei
    obtain ⟨rfl, eo, rfl, rfl⟩ := h1.1.same k1.1 h2 h3 k2 k3
    injection eo with _ eo
    subst eo
    rfl

/-- Every store is that of a call. -/
theorem at_of (E : Exec fixed strict τ β) {d : Bytes} (C : Clean strict τ β N) (hq : NoneOpen τ β d N) {m : Nat} (hm : m < N) {v : V}
    (h : stored τ β m d = some v) : ∃ c : Put V, c.At τ β d N m ∧ c.new = v := by
  obtain ⟨i, a, hr, ho⟩ := E.writer (Whole.Clean.sub C (by omega)) h
  have hx : ∃ e, m ≤ e ∧ e ≤ N ∧ ((τ e).ph i).over = true := by
    refine Classical.byContradiction fun g => hq i v a ⟨ho.call, ho.free, by have := ho.lt; omega, fun n g1 g2 => ?_⟩
    by_cases e : n ≤ m
    · exact ho.busy n g1 e
    · cases e' : ((τ n).ph i).over with
      | false => rfl
      | true => exact absurd ⟨n, by omega, g2, e'⟩ g
  obtain ⟨e, h1, h2, h3⟩ := hx
  obtain ⟨b, r, g1, g2, g3⟩ := ho.returns E h1 h3
  obtain ⟨k, k1, k2, k3, k4, k5, _⟩ := C59_insert_once E g3 (Whole.Clean.sub C (by omega))
  have : k = m := (C59_insert_at_most_once E g3.busy (Whole.Clean.sub C (by omega)) ⟨k1, k2, k3⟩ ⟨ho.lt, g1, hr⟩
      (by rw [k4, if_pos rfl]; nofun) (by rw [h]; nofun)).1
  subst this
  exact ⟨⟨i, a, b, v, r⟩, ⟨⟨g3, by show b < N; omega⟩, k1, k2, k3, h, k5⟩, rfl⟩

theorem hand_over (E : Exec fixed strict τ β) {d : Bytes} (C : Clean strict τ β N) (hq : NoneOpen τ β d N) : ∀ n, n ≤ N →
    ∃ ms : List (Nat × Put V), ms.Pairwise (fun x y => x.1 < y.1) ∧ (∀ x ∈ ms, x.1 < n ∧ x.2.At τ β d N x.1) ∧
      (∀ m, m < n → stored τ β m d ≠ none → ∃ c, (m, c) ∈ ms) ∧ Linked none (ms.map Prod.snd) (map τ β d n)
  | 0, _ => ⟨[], .nil, nofun, fun m h => absurd h (Nat.not_lt_zero m), rfl⟩
  | n + 1, hn => by
    obtain ⟨ms, h1, h2, h3, h4⟩ := hand_over E C hq n (by omega)
    cases e : stored τ β n d with
    | none =>
      refine ⟨ms, h1, fun x hx => ⟨by have := (h2 x hx).1; omega, (h2 x hx).2⟩, fun m hm hs => ?_, by rw [map_still e]; exact h4⟩
      by_cases g : m = n
      · subst g; exact absurd e hs
      · exact h3 m (by omega) hs
    | some v =>
      obtain ⟨c, hc, rfl⟩ := at_of E C hq (m := n) (by omega) e
      refine ⟨ms ++ [(n, c)], ?_, fun x hx => ?_, fun m hm hs => ?_, ?_⟩
      · rw [List.pairwise_append]
        refine ⟨h1, List.pairwise_singleton _ _, fun x hx y hy => ?_⟩
        rw [List.mem_singleton] at hy
        subst hy
        exact (h2 x hx).1
      · rcases List.mem_append.mp hx with g | g
        · exact ⟨by have := (h2 x g).1; omega, (h2 x g).2⟩
        · rw [List.mem_singleton] at g
          subst g
          exact ⟨Nat.lt_succ_self n, hc⟩
      · by_cases g : m = n
        · subst g; exact ⟨c, List.mem_append_right _ (List.mem_singleton.mpr rfl)⟩
        · obtain ⟨c', g'⟩ := h3 m (by omega) hs
          exact ⟨c', List.mem_append_left _ g'⟩
      · rw [map_stored e, List.map_append]
        exact h4.append ⟨hc.old.symm, rfl⟩

/-! ## Theorems -/

/-- **C70.** Whenever no insert of a key is under way, the inserts of that key form a chain, in an order that agrees with the times at which they
ran: the first one has given back nothing, each later one what the one before it has put in, and the last one has put in what the map holds. -/
theorem C70_handed_over (E : Exec fixed strict τ β) {d : Bytes} (C : Clean strict τ β N) (hq : NoneOpen τ β d N) :
    ∃ cs, HandedOver τ β d N cs (map τ β d N) := by
  obtain ⟨ms, h1, h2, h3, h4⟩ := hand_over E C hq N (Nat.le_refl N)
  refine ⟨ms.map Prod.snd, ?_, fun c => ?_, ?_, h4⟩
  · rw [List.Nodup, List.pairwise_map]
    refine h1.imp_of_mem fun {x y} hx hy g e => ?_
    have := ((h2 x hx).2.inj E C (h2 y hy).2).1 e
    omega
  · constructor
    · intro hc
      obtain ⟨x, hx, rfl⟩ := List.mem_map.mp hc
      exact (h2 x hx).2.of
    · intro hc
      have hb := hc.2
      obtain ⟨k, k1, k2, k3, k4, k5, _⟩ := C59_insert_once E hc.1 (Whole.Clean.sub C (by omega))
      have ks : stored τ β k d = some c.new := by rw [k4, if_pos rfl]
      obtain ⟨c', hc'⟩ := h3 k (by omega) (by rw [ks]; nofun)
      have : c = c' := (Put.At.inj E C (m := k) (m' := k) ⟨hc, k1, k2, k3, ks, k5⟩ (h2 _ hc').2).2 rfl
      subst this
      exact List.mem_map.mpr ⟨_, hc', rfl⟩
  · rw [List.pairwise_map]
    refine h1.imp_of_mem fun {x y} hx hy g => ?_
    have hx := (h2 x hx).2
    have hy := (h2 y hy).2
    have := hx.lt
    have := hy.le
    show x.2.call < y.2.ret
    omega

/-- What a chain says about values: those put in are, with the same multiplicities, those given back and the one that is left. -/
theorem Linked.perm {x y : Option V} {cs : List (Put V)} (h : Linked x cs y) :
    (x.toList ++ cs.map Put.new).Perm (cs.filterMap Put.old ++ y.toList) := by
  induction cs generalizing x with
  | nil => have : x = y := h; subst this; simp
  | cons c cs ih =>
    obtain ⟨h1, h2⟩ := h
    have := ih h2
    subst h1
    simp only [Option.toList_some, List.singleton_append] at this
    cases e : c.old with
    | none => simp only [Option.toList_none, List.nil_append, List.map_cons, List.filterMap_cons, e]; exact this
    | some o =>
      simp only [Option.toList_some, List.singleton_append, List.map_cons, List.filterMap_cons, e, List.cons_append]
      exact this.cons o

/-- **C70.** Whenever no insert of a key is under way, the values that were put in under the key are those that inserts have given back and the one
that the map holds: none is given back twice, and none is lost.  If a value was put in twice it may be given back twice. -/
theorem C70_none_lost (E : Exec fixed strict τ β) {d : Bytes} (C : Clean strict τ β N) (hq : NoneOpen τ β d N) :
    ∃ cs : List (Put V), cs.Nodup ∧ (∀ c, c ∈ cs ↔ c.Of τ β d N) ∧ (cs.map Put.new).Perm (cs.filterMap Put.old ++ (map τ β d N).toList) := by
  obtain ⟨cs, H⟩ := C70_handed_over E C hq
  exact ⟨cs, H.once, H.all, by simpa using H.link.perm⟩

/-- In a chain all but the first give something back. -/
theorem Linked.old_some {x y : Option V} {c : Put V} {cs : List (Put V)} (h : Linked x (c :: cs) y) : ∀ c' ∈ cs, c'.old ≠ none := by
  induction cs generalizing x c with
  | nil => nofun
  | cons c1 cs ih =>
    intro c' hc'
    rcases List.mem_cons.mp hc' with rfl | g
    · rw [h.2.1]; nofun
    · exact ih h.2 c' g

/-- **C70.** Of all inserts of a key just one says that the key is new. -/
theorem C70_one_first (E : Exec fixed strict τ β) {d : Bytes} (C : Clean strict τ β N) (hq : NoneOpen τ β d N) {c : Put V} (hc : c.Of τ β d N) :
    ∃ f : Put V, f.Of τ β d N ∧ f.old = none ∧ ∀ c' : Put V, c'.Of τ β d N → c'.old = none → c' = f := by
  obtain ⟨cs, H⟩ := C70_handed_over E C hq
  cases cs with
  | nil => exact absurd ((H.all c).2 hc) (by nofun)
  | cons f cs =>
    refine ⟨f, (H.all f).1 List.mem_cons_self, H.link.1, fun c' h1 h2 => ?_⟩
    rcases List.mem_cons.mp ((H.all c').2 h1) with g | g
    · exact g
    · exact absurd h2 (H.link.old_some c' g)

/-- **C70.** If all values that are put in are different, no two inserts of a key give back the same value. -/
theorem C70_given_once (E : Exec fixed strict τ β) {d : Bytes} (C : Clean strict τ β N) (hq : NoneOpen τ β d N)
    (hv : ∀ c c' : Put V, c.Of τ β d N → c'.Of τ β d N → c.new = c'.new → c = c') {c c' : Put V} (hc : c.Of τ β d N) (hc' : c'.Of τ β d N) {v : V}
    (h1 : c.old = some v) (h2 : c'.old = some v) : c = c' ∧ map τ β d N ≠ some v := by
  obtain ⟨cs, ho, ha, hp⟩ := C70_none_lost E C hq
  have nd : (cs.map Put.new).Nodup := by
    rw [List.Nodup, List.pairwise_map]
    refine (List.Pairwise.imp_of_mem ?_ ho)
    intro x y hx hy g e
    exact g (hv x y ((ha x).1 hx) ((ha y).1 hy) e)
  have nd := hp.nodup_iff.1 nd
  rw [List.nodup_append] at nd
  refine ⟨?_, fun g => ?_⟩
  · have mx := (ha c).2 hc
    have my := (ha c').2 hc'
    have key : ∀ cs : List (Put V), (cs.filterMap Put.old).Nodup → c ∈ cs → c' ∈ cs → c = c' := by
      intro cs
      induction cs with
      | nil => intro _ h; cases h
      | cons z zs ih =>
        intro hn g1 g2
        have inl : ∀ w : Put V, w ∈ zs → w.old = some v → v ∈ zs.filterMap Put.old := fun w hw e => List.mem_filterMap.mpr ⟨w, hw, e⟩
        have rest : (zs.filterMap Put.old).Nodup := by
          cases e : z.old with
          | none => rw [List.filterMap_cons, e] at hn; exact hn
          | some o => rw [List.filterMap_cons, e] at hn; exact (List.nodup_cons.mp hn).2
        have no : z.old = some v → v ∉ zs.filterMap Put.old := fun e => by
          rw [List.filterMap_cons, e] at hn; exact (List.nodup_cons.mp hn).1
        rcases List.mem_cons.mp g1 with e1 | k1 <;> rcases List.mem_cons.mp g2 with e2 | k2
        · exact e1.trans e2.symm
        · exact absurd (inl _ k2 h2) (no (e1 ▸ h1))
        · exact absurd (inl _ k1 h1) (no (e2 ▸ h2))
        · exact ih rest k1 k2
    exact key cs nd.1 mx my
  · exact nd.2.2 v (List.mem_filterMap.mpr ⟨c, (ha c).2 hc, h1⟩) v (by rw [g]; exact List.mem_singleton.mpr rfl) rfl

/-- **C70.** A `get` that overlaps no insert answers the value at the end of the chain. -/
theorem C70_get_last (E : Exec fixed strict τ β) {i a b : Nat} {d : Bytes} {r : Option V} (h : Call τ β i (.get d) a b r) (hq : NoInsert τ a b)
    (C : Clean strict τ β (b + 1)) : ∃ cs, HandedOver τ β d a cs r := by
  have hlt := h.busy.lt
  rw [C65_get_quiet E h hq C]
  refine C70_handed_over E (Whole.Clean.sub C (by omega)) fun j v a' ho => ?_
  exact hq a (Nat.le_refl a) (Nat.le_of_lt hlt) j ⟨ho.busy a ho.lt (Nat.le_refl a), d, v, ho.op E a ho.lt (Nat.le_succ a)⟩

/-! ## On the tree as the code is -/

theorem Agree.put {τ' : Nat → St V} (A : Agree τ τ' N) {d : Bytes} {c : Put V} (h : c.Of τ β d N) : c.Of τ' β d N := ⟨A.call h.2 h.1, h.2⟩

theorem Agree.put_iff {τ' : Nat → St V} (A : Agree τ τ' N) {d : Bytes} {c : Put V} : c.Of τ' β d N ↔ c.Of τ β d N := ⟨A.symm.put, A.put⟩

/-- **C70** of the code as it is: `C70_handed_over`. -/
theorem C70_handed_over_all (E : ExecAll fixed strict τ β) {d : Bytes} (C : Clean strict τ β N) (R : Regular τ β N) (hq : NoneOpen τ β d N) :
    ∃ cs, HandedOver τ β d N cs (map τ β d N) := by
  obtain ⟨E', A⟩ := E.plain R
  have A : Agree τ _ N := A
  obtain ⟨cs, H⟩ := C70_handed_over E' (A.clean (Nat.le_refl _) C) (d := d) fun i v a h => hq i v a (A.symm.open' (Nat.le_refl _) h)
  rw [A.map (by omega)] at H
  exact ⟨cs, H.once, fun c => (H.all c).trans A.put_iff, H.order, H.link⟩

/-- **C70** of the code as it is: `C70_none_lost`. -/
theorem C70_none_lost_all (E : ExecAll fixed strict τ β) {d : Bytes} (C : Clean strict τ β N) (R : Regular τ β N) (hq : NoneOpen τ β d N) :
    ∃ cs : List (Put V), cs.Nodup ∧ (∀ c, c ∈ cs ↔ c.Of τ β d N) ∧ (cs.map Put.new).Perm (cs.filterMap Put.old ++ (map τ β d N).toList) := by
  obtain ⟨cs, H⟩ := C70_handed_over_all E C R hq
  exact ⟨cs, H.once, H.all, by simpa using H.link.perm⟩

/-- **C70** of the code as it is: `C70_get_last`. -/
theorem C70_get_last_all (E : ExecAll fixed strict τ β) {i a b : Nat} {d : Bytes} {r : Option V} (h : Call τ β i (.get d) a b r) (hq : NoInsert τ a b)
    (C : Clean strict τ β (b + 1)) (R : Regular τ β (b + 1)) : ∃ cs, HandedOver τ β d a cs r := by
  obtain ⟨E', A⟩ := E.plain R
  have A : Agree τ _ (b + 1) := A
  have hlt := h.busy.lt
  obtain ⟨cs, H⟩ := C70_get_last E' (A.call (by omega) h) (fun n h1 h2 i => by rw [A n (by omega)]; exact hq n h1 h2 i) (A.clean (Nat.le_refl _) C)
  have A' : Agree τ (plain fixed strict (τ 0) β) a := fun n hn => A n (by omega)
  exact ⟨cs, H.once, fun c => (H.all c).trans A'.put_iff, H.order, H.link⟩

/-! ## An execution -/

/-- Two threads insert the same key at the same time, then a third value is put in and the key is looked up. -/
def crowd : List (Act Nat) :=
  .call 0 (.insert (key8 1) 10) :: .call 1 (.insert (key8 1) 11) :: turns 30 ++ .call 0 (.insert (key8 1) 12) :: List.replicate 30 (.run 0 2 []) ++
    .call 1 (.get (key8 1)) :: List.replicate 30 (.run 1 2 [])

set_option maxRecDepth 100000 in
/-- The four calls meet the hypotheses: the first two overlap, and the one that was made second gives back the value of the other. -/
theorem C70_witness :
    let τ := trace false false empty crowd
    let β := fun n => crowd[n]?
    Exec false false τ β ∧ Clean false τ β 106 ∧ (⟨0, 0, 32, 10, none⟩ : Put Nat).Of τ β (key8 1) 93 ∧ (⟨1, 1, 39, 11, some 10⟩ : Put Nat).Of τ β (key8 1) 93 ∧
      (⟨0, 62, 72, 12, some 11⟩ : Put Nat).Of τ β (key8 1) 93 ∧ NoneOpen τ β (key8 1) 93 ∧ Call τ β 1 (.get (key8 1)) 93 105 (some 12) ∧ NoInsert τ 93 105 := by
  have hl : crowd.length = 124 := by decide +kernel
  have w : ∀ i a b r, walk (act false false) (during i a b r) 0 empty crowd = true → ∀ n, n ≤ crowd.length →
      during i a b r n (trace false false empty crowd n) = true := by
    intro i a b r h n hn
    have := walk_spec h hn
    simpa [trace] using this
  have idle : ∀ n i, 2 ≤ i → (trace false false empty crowd n).ph i = .idle := fun n i hi => by
    refine two_idle ?_ hi rfl
    rw [List.all_eq_true]
    exact fun a ha => (List.all_eq_true.mp (show crowd.all two = true by decide +kernel)) a (List.mem_of_mem_take ha)
  have quiet : ∀ n, n ≤ 105 → 93 ≤ n → ((trace false false empty crowd n).ph 0).over = true := by decide +kernel
  have o1 : ((trace false false empty crowd 93).ph 1).over = true := by decide +kernel
  have c : Call (trace false false empty crowd) (fun n => crowd[n]?) 1 (.get (key8 1)) 93 105 (some 12) :=
    during_call (w _ _ _ _ (by decide +kernel)) (by with_unfolding_all rfl) (by omega) (by omega)
  refine ⟨trace_exec _, Whole.clean_of (fixed := false) (trace_exec crowd).whole (by decide +kernel),
    ⟨during_call (w _ _ _ _ (by decide +kernel)) (by with_unfolding_all rfl) (by decide) (by rw [hl]; decide), by decide⟩,
    ⟨during_call (w _ _ _ _ (by decide +kernel)) (by with_unfolding_all rfl) (by decide) (by rw [hl]; decide), by decide⟩,
    ⟨during_call (w _ _ _ _ (by decide +kernel)) (by with_unfolding_all rfl) (by decide) (by rw [hl]; decide), by decide⟩, fun i v a h => ?_, c, ?_⟩
  · have hb := h.busy 93 h.lt (Nat.le_refl 93)
    by_cases h2 : 2 ≤ i
    · rw [idle 93 i h2] at hb; cases hb
    · rcases (by omega : i = 0 ∨ i = 1) with rfl | rfl
      · rw [quiet 93 (by omega) (by omega)] at hb; cases hb
      · rw [o1] at hb; cases hb
  · rintro n h1 h2 i ⟨hb, d, v, e⟩
    by_cases g : 2 ≤ i
    · rw [idle n i g] at hb; cases hb
    · rcases (by omega : i = 0 ∨ i = 1) with rfl | rfl
      · rw [quiet n h2 h1] at hb; cases hb
      · by_cases g : n = 93
        · subst g; rw [o1] at hb; cases hb
        · rw [c.busy.op (trace_exec _) n (by omega) (by omega)] at e; cases e

set_option maxRecDepth 100000 in
/-- The execution with the same steps of the code as it is, is regular. -/
theorem C70_regular_witness :
    ExecAll false false (traceAll false false empty crowd) (fun n => crowd[n]?) ∧ Regular (traceAll false false empty crowd) (fun n => crowd[n]?) 106 := by
  refine ⟨traceAll_exec _, fun n hn i hi => ?_⟩
  have := walk_spec (f := actAll false false) (p := fun n s => !parting s 0 && !lost s 0 && !parting s 1 && !lost s 1) (as := crowd) (s := empty) (k := 0)
    (by decide +kernel) (n := n) (by rw [show crowd.length = 124 by decide +kernel]; omega)
  have h2 : i < 2 := by
    obtain ⟨y, qs, e⟩ := hi
    have := List.all_eq_true.mp (show crowd.all two = true by decide +kernel) _ (List.mem_of_getElem? e)
    simpa [two] using this
  simp only [Bool.and_eq_true, Bool.not_eq_true'] at this
  obtain ⟨⟨⟨k1, k2⟩, k3⟩, k4⟩ := this
  rcases (by omega : i = 0 ∨ i = 1) with rfl | rfl
  · exact ⟨k1, k2⟩
  · exact ⟨k3, k4⟩
end Verif.Ops
