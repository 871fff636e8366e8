import Verif.Proof.Whole
import Verif.Prop.Forest
set_option linter.unusedSimpArgs false
set_option linter.unusedVariables false
set_option linter.style.nameCheck false
/-!
# Lookups and inserts in the whole tree with its internodes (C58)
-/
namespace Verif.Whole
open Verif.Spec (Bytes)
open Verif.Internode (upd upd_same upd_ne)
open Verif.Forest (Few InTransit Walk)
variable {V : Type} {fixed strict : Bool} {σ : Nat → St V} {α : Nat → Option (Act V)} {N : Nat}

/-- With the repair of `has_changed`, no descent accepts what it has read from a locked internode. -/
theorem clean_strict (h : ∀ n, n ≤ N → ∀ L i o e, ((σ n).side L).ix.pc i ≠ .fail o e) : Clean true σ α N :=
  ⟨fun n _ L i _ o r p w x hp hc => Index.calm_strict ((σ n).side L).ix i o r p w x hp hc, h⟩

theorem Clean.sub {M : Nat} (C : Clean strict σ α N) (h : M ≤ N) : Clean strict σ α M :=
  ⟨fun n hn => C.calm n (by omega), fun n hn => C.done n (by omega)⟩

/-! ## Where descents arrive -/

/-- **C58.** A lookup that has gone down the internodes of a layer enters a leaf of the chain that begins at or before its key, and looks
there for the key it was called with. -/
theorem C58_lookup_arrives (E : Exec fixed strict σ α) {i L a c b : Nat} {k : Key} {r : Race.Out V} {saw : Bool}
    (P : Part σ α i L a c b k r saw) (C : Clean strict σ α c) :
    ∃ x, ((σ (c + 1)).f.layer L).rd i = .leaf x (.stable k) ∧ ((σ c).f.layer L).live x = true ∧
      (((σ c).f.layer L).leaf x).lo ≤ k.ikey := by
  obtain ⟨o, n, hp, _, hr⟩ := P.lookup E
  have W := E.ok C c (Nat.le_refl c)
  have hup : (σ c).f.up L = true := by
    cases e : (σ c).f.up L with
    | true => rfl
    | false =>
      have := W.unused L e
      rw [this] at hp
      cases hp
  have K := W.ok L (W.basic.made L hup)
  have ok := K.F.I.ok i
  have R := K.F.R i
  have hk := K.key i o (by show (((σ c).side L).ix.pc i).op = some o; rw [hp]; rfl)
  rw [show (((σ c).lay L).s.ix.pc i) = _ from hp] at ok R
  have hd := K.down n ok.1 ok.2
  have hk' : ((σ c).side L).key i = k := P.key E c P.lt (Nat.le_refl c)
  refine ⟨_, hr, hd.1, ?_⟩
  have : o.key = k.ikey := by rw [hk]; exact congrArg Key.ikey hk'
  rw [← this, show (((σ c).f.layer L).leaf (((σ c).side L).leaf n)).lo = _ from hd.2.1]
  exact R.1

/-- **C58.** An insert that goes to work on a leaf has its key in the range of the leaf, whatever has been split meanwhile, and keeps
it there as long as it holds the lock: the leaf begins at or before the key and the next leaf, if any, begins after it. -/
theorem C58_insert_in_range (E : Exec fixed strict σ α) {n : Nat} (C : Clean strict σ α n) {i L x : Nat} (ho : ((σ n).side L).owns i = some x) :
    let c := (σ n).f.layer L
    let k := ((σ n).side L).key i
    c.live x = true ∧ c.hold x ≠ .free ∧ (c.leaf x).lo ≤ k.ikey ∧ ((c.leaf x).nx ≠ 0 → k.ikey < (c.leaf (c.leaf x).nx).lo) := by
  intro c k
  have W := E.ok C n (Nat.le_refl n)
  obtain ⟨⟨o, r, m, hp⟩, hi⟩ := owns_some ho
  have hup : (σ n).f.up L = true := by
    cases e : (σ n).f.up L with
    | true => rfl
    | false => rw [W.unused L e] at hp; cases hp
  have K := W.ok L (W.basic.made L hup)
  have q := K.ins i o r m hp
  have hk := K.key i o (by show (((σ n).side L).ix.pc i).op = some o; rw [hp]; rfl)
  rw [show ((σ n).lay L).s.ins i = _ from hi, hk] at q
  refine ⟨q.1, ?_, q.2.1, q.2.2.2⟩
  intro e
  have h := q.2.2.1
  rw [show ((σ n).lay L).c.hold x = .free from e] at h; cases h

/-- **C58.** No two inserts work on the same leaf. -/
theorem C58_owner_unique (E : Exec fixed strict σ α) {n : Nat} (C : Clean strict σ α n) {i j L x : Nat} (hi : ((σ n).side L).owns i = some x)
    (hj : ((σ n).side L).owns j = some x) : i = j := by
  have W := E.ok C n (Nat.le_refl n)
  obtain ⟨p, gi⟩ := owns_some hi
  obtain ⟨p', gj⟩ := owns_some hj
  have hup : (σ n).f.up L = true := by
    obtain ⟨o, r, m, hp⟩ := p
    cases e : (σ n).f.up L with
    | true => rfl
    | false => rw [W.unused L e] at hp; cases hp
  exact (W.ok L (W.basic.made L hup)).excl i j x p p' (by show (((σ n).side L).ins i).grip = _; rw [gi]; rfl)
    (by show (((σ n).side L).ins j).grip = _; rw [gj]; rfl)

/-! ## Lookups -/

/-- The key of a lookup. -/
def ckey : Chain.CPc V → Option Key
  | .idle => none
  | .leaf _ c => Chain.rkey c
  | .adv1 _ k _ | .adv2 _ k _ _ | .adv3 _ k _ | .adv4 _ _ k | .adv5 _ _ k _ | .adv6 _ _ k _ _ | .next _ k | .bound _ k _ | .done k _ _ => some k

theorem rkey_step (b : Tree.Leaf V) (w : NV.W) (c : Race.RPc V) : Chain.rkey (Race.rstep b w c) = Chain.rkey c := by
  cases c <;> simp only [Race.rstep] <;> (repeat' split) <;> rfl

theorem ckey_step (f : Bool) (l : Nat → Chain.LeafSt V) (c : Chain.CPc V) : ckey (Chain.cstep f l c) = ckey c := by
  cases c with
  | leaf x c =>
    cases c <;> simp only [Chain.cstep] <;> (repeat' split) <;> simp only [ckey, rkey_step] <;> rfl
  | _ => simp only [Chain.cstep, Chain.advRet] <;> (repeat' split) <;> rfl

theorem ckey_act (f : Bool) {s : Chain.St V} (a : Chain.Act V) {i : Nat} {k : Key} (h : ckey (s.rd i) = some k) (hn : ∀ k' r w, s.rd i ≠ .done k' r w) :
    ckey ((Chain.act f s a).rd i) = some k := by
  cases a with
  | start j x k' =>
    by_cases e : i = j
    · subst e
      simp only [Chain.act]
      split
      · rename_i g; rw [g] at h; cases h
      · rename_i g; exact absurd g (hn _ _ _)
      · exact h
    · simp only [Chain.act]
      (repeat' split) <;> first | exact h | (show ckey (upd s.rd j _ i) = _; rw [upd_ne _ _ _ e]; exact h)
  | read j =>
    show ckey (upd s.rd j _ i) = _
    by_cases e : i = j
    · subst e; rw [upd_same, ckey_step]; exact h
    · rw [upd_ne _ _ _ e]; exact h
  | hold x =>
    have : (Chain.hstep s x).rd = s.rd := by
      simp only [Chain.hstep] <;> (repeat' split) <;> rfl
    show ckey ((Chain.hstep s x).rd i) = _
    rw [this]; exact h
  | _ => simp only [Chain.act] <;> (repeat' split) <;> exact h

theorem Part.forest (E : Exec fixed strict σ α) {i L a c b : Nat} {k : Key} {r : Race.Out V} {saw : Bool} (P : Part σ α i L a c b k r saw)
    (C : Clean strict σ α N) (hb : b ≤ N) : Chain.Lookup (fun n => (upTo N σ n).layer L) i (c + 1) b k r saw := by
  obtain ⟨x, h1, h2, h3⟩ := C58_lookup_arrives E P (C.sub (by have := P.le; omega))
  obtain ⟨k', he⟩ := P.ends
  have hc := P.le
  have F := E.forest C
  have hup : (σ (c + 1)).f.up L = true := by
    obtain ⟨o, n, hp, _, _⟩ := P.lookup E
    have W := E.ok C c (by omega)
    have hu : (σ c).f.up L = true := by
      cases e : (σ c).f.up L with
      | true => rfl
      | false => rw [W.unused L e] at hp; cases hp
    have := F.up_mono (m := c) (n := c + 1) (by omega) (L := L) (by rw [upTo_eq (by omega)]; exact hu)
    rw [upTo_eq (by omega)] at this; exact this
  have hbusy : ∀ n, c + 1 ≤ n → n < b → ∀ k' r' w, ((upTo N σ n).layer L).rd i ≠ .done k' r' w := by
    intro n g1 g2
    rw [upTo_eq (by omega)]
    exact P.busy n (by omega) g2
  have hk : k' = k := by
    have hm : (upTo N σ (c + 1)).made L = true := by rw [upTo_eq (by omega)]; exact (E.ok C (c + 1) (by omega)).basic.made L hup
    have step : ∀ j, c + 1 + j ≤ b → ckey (((upTo N σ (c + 1 + j)).layer L).rd i) = some k := by
      intro j
      induction j with
      | zero => intro _; rw [Nat.add_zero, upTo_eq (by omega), h1]; rfl
      | succ j ih =>
        intro hj
        have ih := ih (by omega)
        have hs := F.step (c + 1 + j)
        rw [show c + 1 + (j + 1) = c + 1 + j + 1 from rfl, hs]
        split
        · exact ih
        · rename_i x _
          rw [Forest.layer_act x (F.made_mono (by omega) hm)]
          split
          · exact ih
          · exact ckey_act _ _ ih (hbusy _ (by omega) (by omega))
    have := step (b - (c + 1)) (by omega)
    rw [show c + 1 + (b - (c + 1)) = b by omega, upTo_eq hb, he] at this
    exact Option.some.inj this
  subst hk
  exact ⟨by omega, ⟨x, by show ((upTo N σ (c + 1)).layer L).rd i = _; rw [upTo_eq (by omega)]; exact h1⟩, hbusy,
    by show ((upTo N σ b).layer L).rd i = _; rw [upTo_eq hb]; exact he⟩

theorem Get.le {i a b L m : Nat} {d : Bytes} {r : Option V} {saw : Bool} (hg : Get σ α i d L m a b r saw) : a < b := by
  induction hg with
  | found h => have := h.lt; have := h.le; omega
  | absent h => have := h.lt; have := h.le; omega
  | down h _ _ ih => have := h.lt; have := h.le; omega

theorem Get.forest (E : Exec fixed strict σ α) {i a b L m : Nat} {d : Bytes} {r : Option V} {saw : Bool} (hg : Get σ α i d L m a b r saw)
    (C : Clean strict σ α N) : b ≤ N → ∃ a', a ≤ a' ∧ a' ≤ b ∧ Forest.Get (upTo N σ) i d L m a' b r saw := by
  induction hg with
  | found h =>
    intro hb
    have := h.lt; have := h.le
    exact ⟨_, by omega, by omega, .found (h.forest E C hb)⟩
  | absent h =>
    intro hb
    have := h.lt; have := h.le
    exact ⟨_, by omega, by omega, .absent (h.forest E C hb)⟩
  | down h hc h' ih =>
    intro hb
    have := h.lt; have := h.le; have := h'.le
    obtain ⟨a', h1, h2, h3⟩ := ih hb
    exact ⟨_, by omega, by omega, .down (h.forest E C (by omega)) (by omega) h3⟩

theorem few_upTo {a b : Nat} (h : Few (leaves σ) a b) (hab : a ≤ b) (hb : b ≤ N) : Few (upTo N σ) a b := by
  intro L x
  rw [releases_upTo L x b hb, releases_upTo L x a (by omega)]
  exact h L x

/-- **C58.** A lookup in the whole tree, from the root pointer down the internodes of every layer on its way and along the leaves, that
finds a value returns a value that its key had at some moment of the lookup.  Any number of inserts, splits of leaves and of
internodes, new roots and conversions of values into layers may go on meanwhile, at the granularity of single loads and
stores.  `Clean` is the condition that C48 needs; the others are those of C57. -/
theorem C58_get_found_is_current (E : Exec fixed strict σ α) {i a b : Nat} {d : Bytes} {v : V} {saw : Bool} (C : Clean strict σ α b)
    (hg : Get σ α i d 0 0 a b (some v) saw) (hr : Few (leaves σ) a b)
    (hz : d = [] → ∀ j, a ≤ j → j ≤ b → ¬ InTransit (σ j).f d) :
    ∃ j, a ≤ j ∧ j ≤ b ∧ map σ α d j = some v := by
  obtain ⟨a', h1, h2, h3⟩ := hg.forest E C (Nat.le_refl b)
  have := hg.le
  obtain ⟨j, g1, g2, g3⟩ := Forest.C57_get_found_is_current (E.forest C) h3 ((few_upTo hr (by omega) (Nat.le_refl b)).sub h1 h2 (Nat.le_refl b))
    (fun e j k1 k2 => by rw [upTo_eq k2]; exact hz e j (by omega) k2)
  exact ⟨j, by omega, g2, by rw [← map_upTo d j g2]; exact g3⟩

/-- **C58.** Lookups in the whole tree with its internodes are linearizable: the answer, be it a value or nothing, is what the map held
for the key at some moment of the lookup.  The exceptions are those of C57: answers "absent" of the code as it is after a look at a leaf
that was being split (C31), and keys under whose bytes a value is being converted (C29). -/
theorem C58_get_linearizable (E : Exec fixed strict σ α) {i a b : Nat} {d : Bytes} {r : Option V} {saw : Bool} (C : Clean strict σ α b)
    (hg : Get σ α i d 0 0 a b r saw) (hr : Few (leaves σ) a b) (hs : fixed = true ∨ saw = false)
    (hz : ∀ j, a ≤ j → j ≤ b → ¬ InTransit (σ j).f d) :
    ∃ j, a ≤ j ∧ j ≤ b ∧ r = map σ α d j := by
  obtain ⟨a', h1, h2, h3⟩ := hg.forest E C (Nat.le_refl b)
  have := hg.le
  obtain ⟨j, g1, g2, g3⟩ := Forest.C57_get_linearizable (E.forest C) h3 ((few_upTo hr (by omega) (Nat.le_refl b)).sub h1 h2 (Nat.le_refl b)) hs
    (fun j k1 k2 => by rw [upTo_eq k2]; exact hz j (by omega) k2)
  exact ⟨j, by omega, g2, by rw [← map_upTo d j g2]; exact g3⟩

/-- **C58.** An insert returns what the map held for its key just before. -/
theorem C58_insert_returns_previous (E : Exec fixed strict σ α) {n : Nat} (C : Clean strict σ α (n + 1)) {a : Forest.Act V} {d : Bytes} {v : V}
    (ha : stores σ α n = some a) (hw : Forest.written (σ n).f d a = some v) : map σ α d n = Forest.returned (σ n).f a := by
  have := Forest.C57_insert_returns_previous (E.forest C) (n := n) (a := a) (d := d) (v := v) (by rw [upTo_eq (by omega)]; exact hw)
  rw [map_upTo d n (by omega), upTo_eq (by omega)] at this
  exact this

/-- **C58.** Whenever no leaf is locked, going down from the first layer through what the leaves say finds for every key exactly what the
map holds. -/
theorem C58_leaves_are_the_map (E : Exec fixed strict σ α) {n : Nat} (C : Clean strict σ α n) {d : Bytes}
    (hq : ∀ L, (σ n).f.up L = true → ∀ x, ((σ n).f.layer L).hold x = .free) (r : Option V) :
    Walk (σ n).f d 0 0 r ↔ map σ α d n = r := by
  have := Forest.C57_leaves_are_the_map (E.forest C) (n := n) (d := d) (by rw [upTo_eq (Nat.le_refl n)]; exact hq) r
  rw [upTo_eq (Nat.le_refl n), map_upTo d n (Nat.le_refl n)] at this
  exact this

/-- **C58** for the repaired code: if `has_changed` looked at the lock and `get` searched again at a leaf that is being split, every lookup
would be linearizable as long as no propagation fails. -/
theorem C58_get_repaired (E : Exec true true σ α) {i a b : Nat} {d : Bytes} {r : Option V} {saw : Bool}
    (hf : ∀ n, n ≤ b → ∀ L i o e, ((σ n).side L).ix.pc i ≠ .fail o e) (hg : Get σ α i d 0 0 a b r saw) (hr : Few (leaves σ) a b)
    (hz : ∀ j, a ≤ j → j ≤ b → ¬ InTransit (σ j).f d) : ∃ j, a ≤ j ∧ j ≤ b ∧ r = map σ α d j :=
  C58_get_linearizable E (clean_strict hf) hg hr (.inl rfl) hz

/-! ## Witness -/

/-- A call has not failed. -/
def fine : Index.Pc Unit → Bool
  | .fail _ _ => false
  | _ => true

theorem fine_iff (p : Index.Pc Unit) : fine p = true ↔ ∀ o e, p ≠ .fail o e := by
  cases p <;> simp [fine]

/-- What `Clean` says about one step, as a check. -/
def checkStep (fixed strict : Bool) (s : St V) : Option (Act V) → Bool
  | some (.inLayer L (.walk i)) =>
    fine (((act fixed strict s (.inLayer L (.walk i))).side L).ix.pc i) &&
    match (s.side L).ix.pc i with
    | .chk _ _ p w _ => Index.changed strict ((s.side L).ix.heap.node p) w || !((s.side L).ix.heap.node p).locked
    | _ => true
  | _ => true

theorem upd_fine {f : Nat → Index.Pc Unit} {i : Nat} {p : Index.Pc Unit} (hf : ∀ j, fine (f j) = true) (hp : fine p = true) (j : Nat) :
    fine (upd f i p j) = true := by
  unfold upd; split
  · exact hp
  · exact hf j

theorem fine_beside {main : Bool} {l : Lay V} (h : ∀ j, fine (l.s.ix.pc j) = true) (a : LAct V)
    (hw : ∀ i, a = .walk i → fine ((beside strict main l a).ix.pc i) = true) : ∀ j, fine ((beside strict main l a).ix.pc j) = true := by
  cases a with
  | call i k put =>
    simp only [beside, Index.act]
    split
    · rename_i e; rw [e]; exact upd_fine h rfl
    · rename_i e; rw [e]; exact upd_fine h rfl
    · exact h
  | walk i =>
    intro j
    have := hw i rfl
    simp only [beside] at this ⊢
    split
    · rename_i e
      rw [if_pos e] at this
      by_cases ej : j = i
      · subst ej; exact this
      · simp only [Index.act]
        rw [show upd l.s.ix.pc i _ j = _ from upd_ne _ _ _ ej]; exact h j
    · exact h j
  | enter i => simp only [beside]; split <;> first | exact h | exact upd_fine h rfl
  | step i => simp only [beside]; (repeat' split) <;> first | exact h | exact upd_fine h rfl
  | finish i => simp only [beside]; (repeat' split) <;> first | exact h | exact upd_fine h rfl
  | hold i =>
    simp only [beside]; (repeat' split) <;> first | exact h | skip
    simp only [link]; split
    · exact upd_fine h rfl
    · exact h
  | _ => exact h

theorem clean_of (E : Exec fixed strict σ α) {N : Nat} (h : ∀ n, n < N → checkStep fixed strict (σ n) (α n) = true) : Clean strict σ α N := by
  have F : ∀ n, n ≤ N → ∀ L i, fine (((σ n).side L).ix.pc i) = true := by
    intro n
    induction n with
    | zero => intro _ L i; rw [E.start.side L]; rfl
    | succ n ih =>
      intro hn L i
      have ih := ih (by omega)
      have hc := h n (by omega)
      rw [E.steps n]
      cases ea : α n with
      | none => exact ih L i
      | some a =>
        rw [ea] at hc
        cases a with
        | inLayer L' a =>
          have hc' : ∀ j, a = .walk j → fine (((act fixed strict (σ n) (.inLayer L' a)).side L').ix.pc j) = true := by
            intro j e; subst e
            simp only [checkStep, Bool.and_eq_true] at hc
            exact hc.1
          simp only [act] at hc' ⊢
          split
          · rename_i hu
            simp only [if_pos hu] at hc'
            by_cases e : L = L'
            · subst e
              rw [upd_same] at hc'
              show fine ((upd (σ n).side L _ L).ix.pc i) = true
              rw [upd_same]
              exact fine_beside (fun j => ih L j) a hc' i
            · show fine ((upd (σ n).side L' _ L).ix.pc i) = true
              rw [upd_ne _ _ _ e]; exact ih L i
          · exact ih L i
        | convert L' j t d v qs =>
          simp only [act]
          split
          · split <;> exact ih L i
          · exact ih L i
  refine ⟨?_, fun n hn L i => (fine_iff _).1 (F n hn L i)⟩
  intro n hn L i ha o r p w x hp hch
  have := h n hn
  rw [ha] at this
  simp only [checkStep, Bool.and_eq_true, hp, hch, Bool.false_or, Bool.not_eq_true'] at this
  exact this.2

/-- The states of the execution that takes these actions from a state. -/
def trace (fixed strict : Bool) (s : St V) (as : List (Act V)) (n : Nat) : St V := (as.take n).foldl (act fixed strict) s

theorem trace_steps (s : St V) (as : List (Act V)) (n : Nat) : trace fixed strict s as (n + 1) = match as[n]? with
    | none => trace fixed strict s as n
    | some a => act fixed strict (trace fixed strict s as n) a := by
  unfold trace
  by_cases hn : n < as.length
  · rw [List.getElem?_eq_getElem hn, List.take_succ_eq_append_getElem hn, List.foldl_append]; rfl
  · rw [List.getElem?_eq_none (by omega), List.take_of_length_le (by omega), List.take_of_length_le (by omega)]

/-- The empty tree. -/
def emptyTree : St Nat := ⟨Forest.emptyTree, fun _ => Side.init⟩

theorem trace_exec (as : List (Act Nat)) : Exec fixed strict (trace fixed strict emptyTree as) (fun n => as[n]?) :=
  ⟨⟨Forest.emptyTree_start, fun _ => rfl⟩, trace_steps emptyTree as⟩

/-- A key of eight bytes. -/
def short (n : UInt8) : Bytes := [0, 0, 0, 0, 0, 0, 0, n]

/-- Steps in the first layer. -/
def inRoot (as : List (LAct Nat)) : List (Act Nat) := as.map (.inLayer 0)

/-- The keys 3 and 5 are inserted.  Thread 7 begins to look up 5 and is sent to the only leaf.  Thread 0, about to insert 7, splits
the leaf and makes a new root.  Thread 7 goes on and finds 5 in the new leaf, by the link.  Thread 0 goes down through the new
root and locks the new leaf.  Thread 8 looks up 7, goes down through the new root too and waits at the leaf; thread 0 stores 7
and unlocks; thread 8 finds it. -/
def grown : List (Act Nat) := inRoot (
  [.call 0 (Key.mk' (short 3)) true, .walk 0, .walk 0, .enter 0, .step 0, .step 0, .step 0, .write 0 0 3 8 (.val 30) none, .publish 0 0 0,
   .finish 0, .unlock 1] ++
  [.call 0 (Key.mk' (short 5)) true, .walk 0, .walk 0, .enter 0, .step 0, .step 0, .step 0, .write 0 1 5 8 (.val 50) none, .publish 0 1 0,
   .finish 0, .unlock 1] ++
  [.call 7 (Key.mk' (short 5)) false, .walk 7, .walk 7] ++
  [.call 0 (Key.mk' (short 7)) true, .walk 0, .walk 0, .enter 0, .step 0, .step 0, .step 0, .split 0, .freeze 0 1 2] ++
  List.replicate 7 (.hold 0) ++ [.walk 0, .unlock 1, .release 2, .enter 7] ++ List.replicate 15 (.read 7) ++
  List.replicate 9 (.walk 0) ++ [.enter 0, .step 0, .step 0, .step 0] ++
  [.call 8 (Key.mk' (short 7)) false] ++ List.replicate 8 (.walk 8) ++ [.enter 8, .read 8] ++
  [.write 0 1 7 8 (.val 70) none, .publish 0 1 0, .finish 0, .unlock 2] ++ List.replicate 8 (.read 8))

/-- The thread is in a call. -/
def busyIn : Index.Pc Unit → Bool
  | .idle | .done _ _ => false
  | _ => true

theorem inside_iff {s : St V} {L i : Nat} : Inside s L i ↔ busyIn ((s.side L).ix.pc i) = true := by
  unfold Inside
  cases (s.side L).ix.pc i <;> simp [busyIn]

theorem part_of {σ : Nat → St Nat} {α : Nat → Option (Act Nat)} {i L a c b : Nat} {k : Key} {r : Race.Out Nat} {saw : Bool}
    (h1 : busyIn (((σ a).side L).ix.pc i) = false) (h2 : α a = some (.inLayer L (.call i k false))) (h3 : a < c)
    (h4 : ∀ n, n ≤ c → a < n → busyIn (((σ n).side L).ix.pc i) = true) (h5 : α c = some (.inLayer L (.enter i)))
    (h6 : busyIn (((σ (c + 1)).side L).ix.pc i) = false) (h7 : c < b)
    (h8 : ∀ n, n < b → c < n → Chain.ended (((σ n).f.layer L).rd i) = false) (h9 : ((σ b).f.layer L).rd i = .done k r saw) :
    Part σ α i L a c b k r saw := by
  refine ⟨?_, h2, h3, ?_, h5, ?_, h7, ?_, ⟨k, h9⟩⟩
  · rw [inside_iff, h1]; nofun
  · intro n g1 g2; rw [inside_iff]; exact h4 n g2 g1
  · rw [inside_iff, h6]; nofun
  · intro n g1 g2 k' r' w e
    have := h8 n g2 g1
    rw [e] at this; cases this

theorem job_inRoot (as : List (LAct Nat)) (n q : Nat) : (trace fixed strict emptyTree (inRoot as) n).f.job q = none := by
  induction n with
  | zero => rfl
  | succ n ih =>
    rw [trace_steps]
    split
    · exact ih
    · rename_i a ha
      simp only [inRoot, List.getElem?_map, Option.map_eq_some_iff] at ha
      obtain ⟨b, _, rfl⟩ := ha
      simp only [act]
      split <;> exact ih

theorem up_inRoot (as : List (LAct Nat)) (n z : Nat) : (trace fixed strict emptyTree (inRoot as) n).f.up z = (z == 0) := by
  induction n with
  | zero => rfl
  | succ n ih =>
    have hj := job_inRoot (fixed := fixed) (strict := strict) as n
    rw [trace_steps]
    split
    · exact ih
    · rename_i a ha
      simp only [inRoot, List.getElem?_map, Option.map_eq_some_iff] at ha
      obtain ⟨b, _, rfl⟩ := ha
      simp only [act]
      split
      · simp only [ih]
        have : ∀ L c, Forest.opens (trace fixed strict emptyTree (inRoot as) n).f L c = [] := by
          intro L c
          unfold Forest.opens
          simp only [hj]
          (repeat' split) <;> rfl
        split
        · simp only [this, List.contains_nil, Bool.or_false]
        · exact Bool.or_false _
      · exact ih

/-- Without conversions there is nothing in transit. -/
theorem no_transit (E : Exec fixed strict σ α) {n : Nat} (C : Clean strict σ α n) (hj : ∀ q, (σ n).f.job q = none) (d : Bytes) :
    ¬ InTransit (σ n).f d := by
  rintro ⟨L, hu, _, _, x, lv, t, q, st, e, _⟩
  have G := (E.forest C).good n
  obtain ⟨j, h, _⟩ := G.pend L x lv t q st (by rw [upTo_eq (Nat.le_refl n)]; exact hu) (by rw [upTo_eq (Nat.le_refl n)]; exact e)
  rw [upTo_eq (Nat.le_refl n), hj q] at h; cases h

/-- The execution of `grown` is clean. -/
theorem grown_clean : Clean false (trace false false emptyTree grown) (fun n => grown[n]?) 96 :=
  clean_of (fixed := false) (trace_exec grown) (by decide +kernel)

/-- A lookup that begins at the only leaf before it is split, and one that goes down through the new root while the insert that
caused the split stores its key, meet the hypotheses of `C58_lookup_arrives`, `C58_get_found_is_current` and
`C58_get_linearizable`. -/
theorem C58_get_witness :
    let σ := trace false false emptyTree grown
    let α := fun n => grown[n]?
    Exec false false σ α ∧ Clean false σ α 96 ∧ Get σ α 7 (short 5) 0 0 22 60 (some 50) false ∧ Few (leaves σ) 22 60 ∧
      Get σ α 8 (short 7) 0 0 73 96 (some 70) false ∧ Few (leaves σ) 73 96 ∧
      (∀ j, j ≤ 96 → ∀ d, ¬ InTransit (σ j).f d) ∧ map σ α (short 7) 73 = none ∧ map σ α (short 7) 96 = some 70 ∧
      ((σ 96).side 0).ix.heap.root = 3 := by
  refine ⟨trace_exec _, grown_clean, .found (c := 44) (part_of ?_ rfl (by omega) ?_ rfl ?_ (by omega) ?_ ?_), Forest.few_of (by decide),
    .found (c := 82) (part_of ?_ rfl (by omega) ?_ rfl ?_ (by omega) ?_ ?_), Forest.few_of (by decide), ?_, ?_, ?_, ?_⟩
  case refine_11 =>
    intro j hj d
    exact no_transit (trace_exec (fixed := false) (strict := false) grown) (grown_clean.sub hj) (fun q => job_inRoot _ j q) d
  all_goals decide +kernel

/-- In that execution thread 0 owns the new leaf before it stores its key there; it stores 7, and nothing is returned. -/
theorem C58_insert_witness :
    let σ := trace false false emptyTree grown
    let α := fun n => grown[n]?
    ((σ 85).side 0).owns 0 = some 2 ∧ (stores σ α 85).bind (Forest.written (σ 85).f (short 7)) = some 70 ∧
      (stores σ α 85).map (Forest.returned (σ 85).f) = some none ∧
      (((σ 85).f.layer 0).leaf 2).lo = 5 := by
  refine ⟨?_, ?_, ?_, ?_⟩ <;> decide +kernel

set_option maxRecDepth 100000 in
/-- At the end of that execution no leaf is locked. -/
theorem C58_leaves_are_the_map_witness :
    let σ := trace false false emptyTree grown
    (∀ L, (σ 96).f.up L = true → ∀ x, ((σ 96).f.layer L).hold x = .free) ∧ Walk (σ 96).f (short 7) 0 0 (some 70) := by
  refine ⟨?_, .found ⟨2, 1, by decide +kernel, by decide +kernel, by decide +kernel, by decide +kernel⟩⟩
  intro L hu x
  have hL : L = 0 := by
    have this : (trace false false emptyTree grown 96).f.up L = (L == 0) := up_inRoot _ 96 L
    rw [this] at hu
    exact beq_iff_eq.1 hu
  subst hL
  match x with
  | 0 => decide +kernel
  | 1 => decide +kernel
  | 2 => decide +kernel
  | x + 3 => with_unfolding_all rfl

end Verif.Whole
