import Verif.Model.OpsAll
import Verif.Prop.OpsMiss
set_option linter.unusedSimpArgs false
set_option linter.unusedVariables false
/-!
# Calls on the tree as the code is, with findings 1 and 5

What is proved of `Model/Ops.lean` holds of all executions of the code (`Model/OpsAll.lean`), up to the first split between equal slices
and the first insert that meets too many siblings in a sublayer.
-/
namespace Verif.Ops
open Verif.Internode (upd upd_same upd_ne)
open Verif.Spec (Bytes)
open Verif.Forest (InTransit Few)
variable {V : Type} {fixed strict : Bool} {τ τ' : Nat → St V} {β : Nat → Option (Act V)} {N : Nat}

/-- An execution of the code as it is. -/
structure ExecAll (fixed strict : Bool) (τ : Nat → St V) (β : Nat → Option (Act V)) : Prop where
  start : Start (τ 0)
  steps : ∀ n, τ (n + 1) = match β n with
    | none => τ n
    | some a => actAll fixed strict (τ n) a

/-- In the first `N` steps no leaf is split between equal slices, and no insert meets more than 128 siblings in a sublayer. -/
def Regular (τ : Nat → St V) (β : Nat → Option (Act V)) (N : Nat) : Prop :=
  ∀ n, n < N → ∀ i, Runs β i n → parting (τ n) i = false ∧ lost (τ n) i = false

/-- The execution of `Model/Ops.lean` with the same steps. -/
def plain (fixed strict : Bool) (s : St V) (β : Nat → Option (Act V)) : Nat → St V
  | 0 => s
  | n + 1 => match β n with
    | none => plain fixed strict s β n
    | some a => act fixed strict (plain fixed strict s β n) a

theorem ExecAll.plain (E : ExecAll fixed strict τ β) (R : Regular τ β N) :
    Exec fixed strict (plain fixed strict (τ 0) β) β ∧ ∀ n, n ≤ N → Ops.plain fixed strict (τ 0) β n = τ n := by
  refine ⟨⟨E.start, fun n => rfl⟩, fun n => ?_⟩
  induction n with
  | zero => intro _; rfl
  | succ n ih =>
    intro hn
    have e := ih (by omega)
    rw [E.steps n]
    simp only [Ops.plain]
    cases hb : β n with
    | none => exact e
    | some a =>
      dsimp only
      rw [e]
      cases a with
      | call i o => rfl
      | run i y qs =>
        obtain ⟨h1, h2⟩ := R n (by omega) i ⟨y, qs, hb⟩
        simp only [actAll, h1, h2, Bool.or_self, Bool.false_eq_true, if_false]

/-! ## Executions that agree up to a step -/

/-- Two executions agree up to step `N`. -/
def Agree (τ τ' : Nat → St V) (N : Nat) : Prop := ∀ n, n ≤ N → τ' n = τ n

theorem Agree.symm (A : Agree τ τ' N) : Agree τ' τ N := fun n hn => (A n hn).symm

theorem Agree.open' (A : Agree τ τ' N) {i a b : Nat} {o : Op V} (hb : b ≤ N) (h : Open τ β i o a b) : Open τ' β i o a b := by
  have := h.lt
  exact ⟨h.call, by rw [A a (by omega)]; exact h.free, h.lt, fun n h1 h2 => by rw [A n (by omega)]; exact h.busy n h1 h2⟩

theorem Agree.call (A : Agree τ τ' N) {i a b : Nat} {o : Op V} {r : Option V} (hb : b < N) (h : Call τ β i o a b r) : Call τ' β i o a b r :=
  ⟨A.open' (by omega) h.busy, by rw [A (b + 1) (by omega)]; exact h.ends⟩

theorem Agree.moves (A : Agree τ τ' N) {n : Nat} (hn : n ≤ N) : moves τ' β n = moves τ β n := by
  simp only [Ops.moves, A n hn]

theorem Agree.clean (A : Agree τ τ' N) {n : Nat} (hn : n ≤ N) (C : Clean strict τ β n) : Clean strict τ' β n := by
  refine ⟨fun m hm L i h => ?_, fun m hm L i o e => ?_⟩
  · rw [A.moves (by omega)] at h
    simp only [tree, A m (by omega)]
    exact C.calm m hm L i h
  · simp only [tree, A m (by omega)]
    exact C.done m hm L i o e

theorem Agree.stored (A : Agree τ τ' N) {n : Nat} (hn : n ≤ N) (d : Bytes) : stored τ' β n d = stored τ β n d := by
  simp only [Ops.stored, Whole.stores, A.moves hn, tree, A n hn]

theorem Agree.map (A : Agree τ τ' N) {n : Nat} (hn : n ≤ N + 1) (d : Bytes) : map τ' β d n = map τ β d n := by
  induction n with
  | zero => rfl
  | succ n ih =>
    have e : (Whole.stores (tree τ') (Ops.moves τ' β) n).bind (Forest.written (Whole.leaves (tree τ') n) d) =
        (Whole.stores (tree τ) (Ops.moves τ β) n).bind (Forest.written (Whole.leaves (tree τ) n) d) := A.stored (by omega) d
    have := ih (by omega)
    unfold Ops.map Whole.map at this ⊢
    simp only [Forest.map, e, this]

theorem Agree.few (A : Agree τ τ' N) {a b : Nat} (ha : a ≤ N) (hb : b ≤ N) (h : Few (Whole.leaves (tree τ)) a b) : Few (Whole.leaves (tree τ')) a b := by
  have : ∀ L x n, n ≤ N → Chain.releases (fun n => (Whole.leaves (tree τ') n).layer L) x n = Chain.releases (fun n => (Whole.leaves (tree τ) n).layer L) x n := by
    intro L x n
    induction n with
    | zero => intro _; rfl
    | succ n ih =>
      intro hn
      have e1 := ih (by omega)
      have e2 : Whole.leaves (tree τ') n = Whole.leaves (tree τ) n := by simp only [Whole.leaves, tree, A n (by omega)]
      have e3 : Whole.leaves (tree τ') (n + 1) = Whole.leaves (tree τ) (n + 1) := by simp only [Whole.leaves, tree, A (n + 1) hn]
      simp only [Chain.releases, e1, e2, e3]
  intro L x
  rw [this L x a ha, this L x b hb]
  exact h L x

theorem Agree.unmarked (A : Agree τ τ' N) {i a b : Nat} (hb : b ≤ N) (h : Unmarked τ i a b) : Unmarked τ' i a b := by
  intro n L m k r h1 h2
  rw [A n (by omega)]
  exact h n L m k r h1 h2

theorem Agree.keys (A : Agree τ τ' N) {n : Nat} (hn : n ≤ N) {ks : List Bytes} (h : Keys τ β n ks) : Keys τ' β n ks :=
  ⟨h.once, fun d => by rw [A.map (by omega)]; exact h.mem d⟩

/-! ## The theorems -/

/-- **C59** for the code as it is. -/
theorem C59_insert_once_all (E : ExecAll fixed strict τ β) {i a b : Nat} {d : Bytes} {v : V} {r : Option V} (h : Call τ β i (.insert d v) a b r)
    (C : Clean strict τ β (b + 1)) (R : Regular τ β (b + 1)) :
    ∃ n, a < n ∧ n ≤ b ∧ Runs β i n ∧ (∀ d', stored τ β n d' = if d' = d then some v else none) ∧
      map τ β d n = r ∧ map τ β d (n + 1) = some v ∧ (∀ d', d' ≠ d → map τ β d' (n + 1) = map τ β d' n) ∧
      ∀ n', a < n' → n' ≤ b → n' ≠ n → Runs β i n' → ∀ d', stored τ β n' d' = none := by
  obtain ⟨E', A⟩ := E.plain R
  obtain ⟨n, h1, h2, h3, h4, h5, h6, h7, h8⟩ := C59_insert_once E' (Agree.call A (by omega) h) (Agree.clean A (Nat.le_refl _) C)
  refine ⟨n, h1, h2, h3, fun d' => ?_, ?_, ?_, fun d' hd => ?_, fun n' g1 g2 g3 g4 d' => ?_⟩
  · rw [← Agree.stored A (by omega)]; exact h4 d'
  · rw [← Agree.map A (by omega)]; exact h5
  · rw [← Agree.map A (by omega)]; exact h6
  · rw [← Agree.map A (by omega), ← Agree.map A (by omega)]; exact h7 d' hd
  · rw [← Agree.stored A (by omega)]; exact h8 n' g1 g2 g3 g4 d'

/-- **C59** for the code as it is. -/
theorem C59_only_inserts_write_all (E : ExecAll fixed strict τ β) {n : Nat} (C : Clean strict τ β n) (R : Regular τ β n) {d : Bytes}
    (h : map τ β d (n + 1) ≠ map τ β d n) : ∃ i a v, Runs β i n ∧ Open τ β i (.insert d v) a n ∧ map τ β d (n + 1) = some v := by
  obtain ⟨E', A⟩ := E.plain R
  have e1 := Agree.map (β := β) A (Nat.le_refl (n + 1)) d
  have e2 := Agree.map (β := β) A (Nat.le_succ n) d
  obtain ⟨i, a, v, h1, h2, h3⟩ := C59_only_inserts_write E' (Agree.clean A (Nat.le_refl _) C) (d := d) (by rw [e1, e2]; exact h)
  exact ⟨i, a, v, h1, Agree.open' (Agree.symm A) (Nat.le_refl _) h2, by rw [← e1]; exact h3⟩

/-- **C59** for the code as it is. -/
theorem C59_get_linearizable_all (E : ExecAll fixed strict τ β) {i a b : Nat} {d : Bytes} {r : Option V} (h : Call τ β i (.get d) a b r)
    (C : Clean strict τ β (b + 1)) (R : Regular τ β (b + 1)) (hr : Few (Whole.leaves (tree τ)) a b) (hs : fixed = true ∨ Unmarked τ i a b)
    (hz : ∀ j, a ≤ j → j ≤ b → ¬ InTransit (τ j).w.f d) : ∃ n, a < n ∧ n ≤ b ∧ map τ β d n = r := by
  obtain ⟨E', A⟩ := E.plain R
  have hab := h.busy.lt
  obtain ⟨n, h1, h2, h3⟩ := C59_get_linearizable E' (Agree.call A (by omega) h) (Agree.clean A (Nat.le_refl _) C)
    (Agree.few A (by omega) (by omega) hr) (hs.imp id fun g => Agree.unmarked A (by omega) g)
    fun j k1 k2 => by rw [A j (by omega)]; exact hz j k1 k2
  exact ⟨n, h1, h2, by rw [← Agree.map A (by omega)]; exact h3⟩

/-- **C60, partial,** for the code as it is. -/
theorem C60_len_exact_all_partial (E : ExecAll fixed strict τ β) {n : Nat} (C : Clean strict τ β n) (R : Regular τ β n)
    (h : ∀ i, ((τ n).ph i).over = true ∨ (τ n).ph i = .err) : ∃ ks, Keys τ β n ks ∧ (τ n).count = ks.length := by
  obtain ⟨E', A⟩ := E.plain R
  obtain ⟨ks, h1, h2⟩ := C60_len_exact_partial E' (Agree.clean A (Nat.le_refl _) C) (by rw [A n (Nat.le_refl _)]; exact h)
  exact ⟨ks, Agree.keys (Agree.symm A) (Nat.le_refl _) h1, by rw [← A n (Nat.le_refl _)]; exact h2⟩

/-- **C61** for the code as it is. -/
theorem C61_insert_never_fails_all (E : ExecAll fixed strict τ β) {i n : Nat} {d : Bytes} {v : V} (C : Clean strict τ β n) (R : Regular τ β n)
    (ho : (τ n).op i = .insert d v) : (τ n).ph i ≠ .err := by
  obtain ⟨E', A⟩ := E.plain R
  have := C61_insert_never_fails E' (i := i) (d := d) (v := v) (Agree.clean A (Nat.le_refl _) C) (by rw [A n (Nat.le_refl _)]; exact ho)
  rw [A n (Nat.le_refl _)] at this
  exact this

/-- **C62** for the code as it is. -/
theorem C62_bound_is_fixed_all (E : ExecAll fixed strict τ β) (C : Clean strict τ β N) (R : Regular τ β N) {m n : Nat} (hmn : m ≤ n) (hn : n ≤ N)
    {L x : Nat} (h : IsLeaf (τ m) L x) (hx : x ≠ 1) : IsLeaf (τ n) L x ∧ ikeyBound (τ n) L x = ikeyBound (τ m) L x := by
  obtain ⟨E', A⟩ := E.plain R
  have := C62_bound_is_fixed E' (Agree.clean A (Nat.le_refl _) C) hmn hn (L := L) (x := x) (by rw [A m (by omega)]; exact h) hx
  rw [A m (by omega), A n hn] at this
  exact this

/-- **C63, partial,** for the code as it is. -/
theorem C63_visible_all_partial (E : ExecAll fixed strict τ β) {i j a b a' b' : Nat} {d : Bytes} {v : V} {r r' : Option V}
    (h : After1 τ β i j a b a' b' d v r r') (C : Clean strict τ β (b' + 1)) (R : Regular τ β (b' + 1)) (hr : Few (Whole.leaves (tree τ)) a' b')
    (hs : fixed = true ∨ Unmarked τ j a' b') (hz : ∀ j, a' ≤ j → j ≤ b' → ¬ InTransit (τ j).w.f d) : r' = some v := by
  obtain ⟨E', A⟩ := E.plain R
  have hab := h.get.busy.lt
  have hbb := h.lt
  refine C63_visible_partial E' (a := a) (b := b) (i := i) (r := r) ⟨Agree.call A (by omega) h.put, Agree.call A (by omega) h.get, h.lt, ?_⟩ (Agree.clean A (Nat.le_refl _) C)
    (Agree.few A (by omega) (by omega) hr) (hs.imp id fun g => Agree.unmarked A (by omega) g)
    fun j k1 k2 => by rw [A j (by omega)]; exact hz j k1 k2
  intro i' v' c n h1 h2 ho
  exact h.only i' v' c n h1 h2 (Agree.open' (Agree.symm A) (by omega) ho)

/-! ## A split between equal slices -/

/-- The states of the execution that takes these actions from a state. -/
def traceAll (fixed strict : Bool) (s : St V) (as : List (Act V)) (n : Nat) : St V := (as.take n).foldl (actAll fixed strict) s

/-- `g` followed by `n` zero bytes: for `n = 0..8` these keys share their first eight bytes. -/
def grp (g : UInt8) (n : Nat) : Bytes := g :: List.replicate n 0

/-- Thread 0 inserts a key. -/
def ins (d : Bytes) (v k : Nat) : List (Act Nat) := .call 0 (.insert d v) :: List.replicate k (.run 0 2 [5])

/-- Thread 0 inserts four small keys, nine keys that share their first eight bytes, and twelve large ones, the last of which splits the
leaf.  Then it looks up the first one of the nine. -/
def torn : List (Act Nat) :=
  (((List.range 4).map fun i => ins [10, i.toUInt8 + 1] i 16) ++ ((List.range 9).map fun i => ins (grp 200 i) (10 + i) 16) ++
    ((List.range 11).map fun i => ins [201, i.toUInt8 + 1] (20 + i) 16)).flatten ++ ins [201, 12] 31 64 ++
    .call 0 (.get [200]) :: List.replicate 40 (.run 0 2 [5])

theorem traceAll_steps (s : St V) (as : List (Act V)) (n : Nat) : traceAll fixed strict s as (n + 1) = match as[n]? with
    | none => traceAll fixed strict s as n
    | some a => actAll fixed strict (traceAll fixed strict s as n) a := by
  unfold traceAll
  by_cases hn : n < as.length
  · rw [List.getElem?_eq_getElem hn, List.take_succ_eq_append_getElem hn, List.foldl_append]; rfl
  · rw [List.getElem?_eq_none (by omega), List.take_of_length_le (by omega), List.take_of_length_le (by omega)]

theorem traceAll_exec (as : List (Act Nat)) : ExecAll fixed strict (traceAll fixed strict empty as) (fun n => as[n]?) :=
  ⟨⟨⟨Forest.emptyTree_start, fun _ => rfl⟩, fun _ => rfl, rfl⟩, traceAll_steps empty as⟩

set_option maxRecDepth 100000 in
/-- **C63** does not hold when a leaf is split between equal slices (finding 1), with a single thread: the key `[200]` is inserted in steps
68 to 84, and looked up in steps 473 to 504. -/
theorem C63_lost_by_split :
    let τ := traceAll false false empty torn
    let β := fun n => torn[n]?
    ExecAll false false τ β ∧ After1 τ β 0 0 68 84 473 504 [200] 10 none none ∧ (∀ n, n < 514 → parting (τ n) 0 = true → n = 417) ∧
      ∀ n, n < 514 → lost (τ n) 0 = false := by
  refine ⟨traceAll_exec _, after_of (f := actAll false false) (by decide +kernel) rfl rfl (by omega) (by omega) (by omega) (by decide +kernel) (by decide +kernel), ?_, ?_⟩
  · intro n hn hp
    have := walk_spec (f := actAll false false) (p := fun n s => !parting s 0 || n == 417) (as := torn) (s := empty) (k := 0) (by decide +kernel)
      (n := n) (by rw [show torn.length = 514 by decide +kernel]; omega)
    rw [Nat.zero_add] at this
    rw [show parting (List.foldl (actAll false false) empty (List.take n torn)) 0 = true from hp] at this
    simpa using this
  · intro n hn
    have := walk_spec (f := actAll false false) (p := fun n s => !lost s 0) (as := torn) (s := empty) (k := 0) (by decide +kernel)
      (n := n) (by rw [show torn.length = 514 by decide +kernel]; omega)
    simpa [traceAll] using this

set_option maxRecDepth 100000 in
/-- An execution with a split can be regular: that of `filled`, in which a full leaf is split between different slices. -/
theorem C63_regular_witness :
    ExecAll false false (traceAll false false empty filled) (fun n => filled[n]?) ∧
      Regular (traceAll false false empty filled) (fun n => filled[n]?) 473 ∧ (traceAll false false empty filled 473).count = 25 := by
  refine ⟨traceAll_exec _, ?_, by decide +kernel⟩
  intro n hn i hi
  have := walk_spec (f := actAll false false) (p := fun n s => !parting s 0 && !lost s 0) (as := filled) (s := empty) (k := 0) (by decide +kernel)
      (n := n) (by rw [show filled.length = 473 by decide +kernel]; omega)
  have h0 : i = 0 := by
    obtain ⟨y, qs, e⟩ := hi
    have : filled.all (fun a => match a with | .run i _ _ => i == 0 | _ => true) = true := by decide +kernel
    have := List.all_eq_true.1 this _ (List.mem_of_getElem? e)
    simpa using this
  subst h0
  simp only [Bool.and_eq_true, Bool.not_eq_true'] at this
  exact this

end Verif.Ops
