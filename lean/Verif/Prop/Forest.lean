import Verif.Proof.ForestConv
import Verif.Prop.ChainValue
set_option linter.unusedSimpArgs false
set_option linter.unusedVariables false
set_option linter.style.nameCheck false
/-!
# Lookups and inserts in the whole tree (C57)
-/
namespace Verif.Forest
open Verif.Spec
open Verif.Internode (upd upd_same upd_ne)
open Verif.Tree (Leaf Cell emptyLeaf)
open Verif.Race (Out)
open Verif.Chain (releases Lookup Holds)
variable {V : Type} {f : Bool} {σ : Nat → St V} {α : Nat → Option (Act V)}

/-! ## One layer among many -/

theorem releases_agree {τ τ' : Nat → Chain.St V} {a : Nat} (h : ∀ n, a ≤ n → τ n = τ' n) (x j : Nat) :
    releases τ x (a + j) + releases τ' x a = releases τ' x (a + j) + releases τ x a := by
  induction j with
  | zero => exact Nat.add_comm _ _
  | succ j ih =>
    show releases τ x (a + j) + (if (τ (a + j)).hold x ≠ .free ∧ (τ (a + j + 1)).hold x = .free then 1 else 0) + _ =
      releases τ' x (a + j) + (if (τ' (a + j)).hold x ≠ .free ∧ (τ' (a + j + 1)).hold x = .free then 1 else 0) + _
    rw [h (a + j) (by omega), h (a + j + 1) (by omega)]
    omega

theorem releases_mono (τ : Nat → Chain.St V) (x : Nat) {a b : Nat} (h : a ≤ b) : releases τ x a ≤ releases τ x b := by
  obtain ⟨j, rfl⟩ := Nat.exists_eq_add_of_le h
  clear h
  induction j with
  | zero => exact Nat.le_refl _
  | succ j ih =>
    refine Nat.le_trans ih ?_
    show _ ≤ releases τ x (a + j) + _
    omega

/-- Few releases during a lookup. -/
def Few (σ : Nat → St V) (a b : Nat) : Prop := ∀ L x, releases (fun n => (σ n).layer L) x b - releases (fun n => (σ n).layer L) x a < 2 ^ 19

theorem Few.sub {a b a' b' : Nat} (h : Few σ a b) (h1 : a ≤ a') (h2 : a' ≤ b') (h3 : b' ≤ b) : Few σ a' b' := by
  intro L x
  have := h L x
  have h4 := releases_mono (fun n => (σ n).layer L) x h1
  have h5 := releases_mono (fun n => (σ n).layer L) x h3
  omega

section
variable (h : Exec f σ α) {L a b i : Nat} (hm : (σ a).made L = true)
include h hm

theorem Exec.proj_after {n : Nat} (hn : a ≤ n) : proj σ L n = (σ n).layer L := proj_eq (h.made_mono hn hm)

theorem Exec.lookup {k : Key} {r : Out V} {saw : Bool} (hl : Lookup (fun n => (σ n).layer L) i a b k r saw) :
    Lookup (proj σ L) i a b k r saw := by
  have e := fun n hn => h.proj_after hm (n := n) hn
  refine ⟨hl.le, ?_, ?_, ?_⟩
  · rw [e a (Nat.le_refl a)]; exact hl.begins
  · intro n h1 h2; rw [e n h1]; exact hl.busy n h1 h2
  · rw [e b hl.le]; exact hl.ends

theorem Exec.few (hab : a ≤ b) (hr : Few σ a b) (x : Nat) : releases (proj σ L) x b - releases (proj σ L) x a < 2 ^ 19 := by
  obtain ⟨j, rfl⟩ := Nat.exists_eq_add_of_le hab
  have h1 := releases_agree (τ := proj σ L) (τ' := fun n => (σ n).layer L) (a := a) (fun n hn => h.proj_after hm hn) x j
  have h2 := hr L x
  have h3 := releases_mono (fun n => (σ n).layer L) x hab
  have h4 := releases_mono (proj σ L) x hab
  omega
end

theorem shift_keyIn {p d : Bytes} {m : Nat} (h : p.length = 8 * m) : Key.shiftTimes m (Key.mk' d) = keyIn p d := by
  unfold keyIn; rw [h, Nat.mul_div_cancel_left m (by decide)]

/-- The rest of a key below a layer is empty only for the empty key. -/
theorem empty_rest {p d : Bytes} (ha : 8 ∣ p.length) (hu : Under p d) (h0 : (keyIn p d).currentLen = 0) : d = [] := by
  rw [(obs_keyIn ha).len, List.length_drop] at h0
  rcases hu.2 with e | e
  · rw [e] at h0
    exact List.eq_nil_of_length_eq_zero (by simpa using h0)
  · have : ikeySize = 8 := rfl
    omega

/-- What a lookup in one layer has seen. -/
theorem Exec.seen (h : Exec f σ α) {i a b L m : Nat} {d : Bytes} {r : Out V} {saw : Bool} (hu : (σ a).up L = true)
    (hd : Under ((σ a).pre L) d) (hp : ((σ a).pre L).length = 8 * m)
    (hl : Lookup (fun n => (σ n).layer L) i a b (Key.shiftTimes m (Key.mk' d)) r saw) (hr : Few σ a b)
    (hz : d = [] → ∀ j, a ≤ j → j ≤ b → ¬ InTransit (σ j) d) :
    r = .absent ∨ (r ≠ .misread ∧ ∃ j, a ≤ j ∧ j ≤ b ∧ C σ α L (keyIn ((σ j).pre L) d) j = r) := by
  have hm := (h.basic a).made L hu
  have ha := (h.basic a).align L hm
  rw [shift_keyIn hp] at hl
  rcases Chain.C56_found_value_is_current (h.proj_exec hm) (h.proj_steps hm) (h.lookup hm hl) (h.few hm hl.le hr) (fun h0 j h1 h2 ht => by
      have he := empty_rest ha hd h0
      refine hz he j h1 h2 ⟨L, h.up_mono h1 hu, ?_, .inr he, ?_⟩
      · rw [h.pre_mono h1 hm]; exact hd
      · rw [h.pre_mono h1 hm, ← h.proj_after hm h1]; exact ht) with e | ⟨e1, j, h1, h2, h3⟩
  · exact .inl e
  · exact .inr ⟨e1, j, h1, h2, by rw [h.pre_mono h1 hm]; exact h3⟩

/-- A lookup that goes on does so in the layer below that has its key. -/
theorem Exec.goes_down (h : Exec f σ α) {j L q m : Nat} {d : Bytes} (hu : (σ j).up L = true) (hd : Under ((σ j).pre L) d)
    (hp : ((σ j).pre L).length = 8 * m) (hc : C σ α L (keyIn ((σ j).pre L) d) j = .descend q) {c : Nat} (hjc : j ≤ c) :
    (σ c).up q = true ∧ Under ((σ c).pre q) d ∧ ((σ c).pre q).length = 8 * (m + 1) := by
  have h1 := (h.good j).one L d hu hd
  have h1 : Agrees (map σ α d j) (C σ α L (keyIn ((σ j).pre L) d) j) _ := h1
  rw [hc] at h1
  obtain ⟨h2, h3, h4⟩ := h1
  have hm := (h.basic j).made q h2
  refine ⟨h.up_mono hjc h2, ?_, ?_⟩
  · rw [h.pre_mono hjc hm]
    refine under_of_take ?_ ?_
    · rw [h3, List.length_take, Nat.min_eq_left (by omega)]
    · rw [h3, List.length_take]; omega
  · rw [h.pre_mono hjc hm, h3, List.length_take, hp]; omega

theorem Get.le {i a b L m : Nat} {d : Bytes} {r : Option V} {saw : Bool} (hg : Get σ i d L m a b r saw) : a ≤ b := by
  induction hg with
  | found hl => exact hl.le
  | absent hl => exact hl.le
  | down hl hc _ ih => exact Nat.le_trans hl.le (Nat.le_trans hc ih)

/-- The last layer of a lookup has its key. -/
theorem Get.last {i a b L m : Nat} {d : Bytes} {r : Option V} {saw : Bool} (hg : Get σ i d L m a b r saw) : Exec f σ α → Few σ a b →
    (d = [] → ∀ j, a ≤ j → j ≤ b → ¬ InTransit (σ j) d) → (σ a).up L = true → Under ((σ a).pre L) d →
    ((σ a).pre L).length = 8 * m → ∃ L' m' a', a ≤ a' ∧ (σ a').up L' = true ∧ Under ((σ a').pre L') d ∧
      ((σ a').pre L').length = 8 * m' ∧
      Lookup (fun n => (σ n).layer L') i a' b (Key.shiftTimes m' (Key.mk' d)) (Chain.answer r) saw := by
  induction hg with
  | found hl => intro h hr hz hu hd hp; exact ⟨_, _, _, Nat.le_refl _, hu, hd, hp, hl⟩
  | absent hl => intro h hr hz hu hd hp; exact ⟨_, _, _, Nat.le_refl _, hu, hd, hp, hl⟩
  | down hl hc hg' ih =>
    rename_i L m a b1 q c e r w saw
    intro h hr hz hu hd hp
    have hce := hg'.le
    have hab := hl.le
    rcases h.seen hu hd hp hl (hr.sub (Nat.le_refl _) hl.le (by omega)) (fun e j h1 h2 => hz e j (by omega) (by omega)) with e | ⟨_, j, h1, h2, h3⟩
    · cases e
    · have hmL := (h.basic a).made L hu
      obtain ⟨g1, g2, g3⟩ := h.goes_down (h.up_mono h1 hu) (by rw [h.pre_mono h1 hmL]; exact hd)
        (by rw [h.pre_mono h1 hmL]; exact hp) h3 (c := c) (by omega)
      obtain ⟨L', m', a', k1, k2⟩ := ih h (hr.sub (by omega) hce (Nat.le_refl _)) (fun e j h1 h2 => hz e j (by omega) h2) g1 g2 g3
      exact ⟨L', m', a', by omega, k2⟩

theorem Exec.root_under (h : Exec f σ α) (n : Nat) (d : Bytes) :
    (σ n).up 0 = true ∧ Under ((σ n).pre 0) d ∧ ((σ n).pre 0).length = 8 * 0 := by
  have hb := h.basic n
  exact ⟨hb.root, by rw [hb.top]; exact ⟨List.nil_prefix, .inl rfl⟩, by rw [hb.top]; rfl⟩

/-- **C57.** A lookup that finds a value, however many layers deep, returns a value that its key had at some moment of the
lookup.  Any number of inserts, splits and conversions of values into chains of layers may go on meanwhile, at the
granularity of single loads and stores.  Fewer than `2^19` critical sections may end on a leaf during the lookup; the empty
key is excepted while a value under eight zero bytes is being converted (C45). -/
theorem C57_get_found_is_current (h : Exec f σ α) {i a b : Nat} {d : Bytes} {v : V} {saw : Bool}
    (hg : Get σ i d 0 0 a b (some v) saw) (hr : Few σ a b) (hz : d = [] → ∀ j, a ≤ j → j ≤ b → ¬ InTransit (σ j) d) :
    ∃ j, a ≤ j ∧ j ≤ b ∧ map σ α d j = some v := by
  obtain ⟨g1, g2, g3⟩ := h.root_under a d
  obtain ⟨L, m, a', h0, hu, hd, hp, hl⟩ := hg.last h hr hz g1 g2 g3
  rcases h.seen hu hd hp hl (hr.sub h0 hl.le (Nat.le_refl b)) (fun e j h1 h2 => hz e j (by omega) h2) with e | ⟨_, j, h1, h2, h3⟩
  · cases e
  · have h4 : Agrees (map σ α d j) (C σ α L (keyIn ((σ j).pre L) d) j) _ :=
      (h.good j).one L d (h.up_mono h1 hu) (by rw [h.pre_mono h1 ((h.basic a').made L hu)]; exact hd)
    rw [h3] at h4
    exact ⟨j, by omega, h2, h4⟩

/-- **C57.** A lookup in the whole tree answers with what the map held for its key at some moment of the lookup, be it a value
or nothing at all: lookups are linearizable.  Excepted are answers "absent" of the code as it is when in its last layer the
lookup has met a leaf that was being split (`saw`, C31), and keys under whose bytes a value is being converted (C29). -/
theorem C57_get_linearizable (h : Exec f σ α) {i a b : Nat} {d : Bytes} {r : Option V} {saw : Bool}
    (hg : Get σ i d 0 0 a b r saw) (hr : Few σ a b) (hs : f = true ∨ saw = false) (hz : ∀ j, a ≤ j → j ≤ b → ¬ InTransit (σ j) d) :
    ∃ j, a ≤ j ∧ j ≤ b ∧ r = map σ α d j := by
  obtain ⟨g1, g2, g3⟩ := h.root_under a d
  obtain ⟨L, m, a', h0, hu, hd, hp, hl⟩ := hg.last h hr (fun _ => hz) g1 g2 g3
  have hm := (h.basic a').made L hu
  have ha := (h.basic a').align L hm
  rw [shift_keyIn hp] at hl
  obtain ⟨j, h1, h2, h3⟩ := Chain.C56_lookup_linearizable (h.proj_exec hm) (h.proj_steps hm) (h.lookup hm hl)
    (h.few hm hl.le (hr.sub h0 hl.le (Nat.le_refl b))) hs (fun hk j h1 h2 ht => by
      refine hz j (by omega) h2 ⟨L, h.up_mono h1 hu, ?_, ?_, ?_⟩
      · rw [h.pre_mono h1 hm]; exact hd
      · rw [h.pre_mono h1 hm]
        rcases hk with h0 | h0
        · exact .inr (empty_rest ha hd h0)
        · exact .inl ((more_iff ha).1 h0)
      · rw [h.pre_mono h1 hm, ← h.proj_after hm h1]; exact ht)
  have h4 : Agrees (map σ α d j) (C σ α L (keyIn ((σ j).pre L) d) j) _ :=
    (h.good j).one L d (h.up_mono h1 hu) (by rw [h.pre_mono h1 hm]; exact hd)
  rw [h.pre_mono h1 hm, show C σ α L (keyIn ((σ a').pre L) d) j = _ from h3.symm] at h4
  refine ⟨j, by omega, h2, ?_⟩
  cases r with
  | none => exact Eq.symm h4
  | some v => exact Eq.symm h4

/-- **C57.** An insert returns what the map held for its key just before: the value that it replaced, or nothing if and only if
the key was not in the tree.  This covers inserts that replace a value, that fill a slot and that make new layers, in all
layers, with any other inserts, splits and conversions under way. -/
theorem C57_insert_returns_previous (h : Exec f σ α) {n : Nat} {a : Act V} {d : Bytes} {v : V} (hw : written (σ n) d a = some v) :
    map σ α d n = returned (σ n) a := by
  cases a with
  | convert L x t d' v' qs => cases hw
  | inLayer L a =>
    unfold written at hw
    simp only at hw
    split at hw
    · rename_i hc
      obtain ⟨hu, hp, hd⟩ := hc
      have hm := (h.basic n).made L hu
      have I := h.good n
      cases hcw : Chain.written ((σ n).layer L) (keyIn ((σ n).pre L) d) a with
      | none => rw [hcw] at hw; cases hw
      | some r =>
        rcases Chain.written_cases hcw with ⟨w, rfl⟩ | ⟨x, lv, t, q, rfl, e2, e3, e4, rfl⟩
        · have h1 := Chain.C56_insert_returns_previous (h.proj_exec hm) (h.proj_steps hm) (n := n) (by rw [proj_eq hm]; exact hcw)
          rw [proj_eq hm] at h1
          have h2 : Agrees (map σ α d n) (C σ α L (keyIn ((σ n).pre L) d) n) _ := I.one L d hu hd
          rw [show C σ α L (keyIn ((σ n).pre L) d) n = _ from h1] at h2
          have h3 : returned (σ n) (.inLayer L a) = Chain.replaced ((σ n).layer L) a := by
            unfold returned Chain.replaced
            cases a <;> rfl
          rw [h3]
          cases hrp : Chain.replaced ((σ n).layer L) a with
          | none => rw [hrp] at h2; exact h2
          | some w => rw [hrp] at h2; exact h2
        · obtain ⟨j, hj, hP⟩ := I.pend L x lv t q 4 hu e2
          rw [hcw] at hw
          simp only [hj] at hw
          split at hw
          · rename_i e
            subst e
            exact hP.fresh
          · cases hw
    · cases hw

theorem Exec.walk (h : Exec f σ α) {n : Nat} {d : Bytes} (hq : ∀ L, (σ n).up L = true → ∀ x, ((σ n).layer L).hold x = .free)
    {L m : Nat} {r : Option V} (hw : Walk (σ n) d L m r) : (σ n).up L = true → Under ((σ n).pre L) d →
    ((σ n).pre L).length = 8 * m → map σ α d n = r := by
  have base : ∀ {L m : Nat}, (σ n).up L = true → Under ((σ n).pre L) d → ((σ n).pre L).length = 8 * m → ∀ r,
      C σ α L (keyIn ((σ n).pre L) d) n = r ↔ Holds ((σ n).layer L) (Key.shiftTimes m (Key.mk' d)) r ∨
        (r = .absent ∧ ∀ r', ¬ Holds ((σ n).layer L) (Key.shiftTimes m (Key.mk' d)) r') := by
    intro L m hu hd hp r
    have hm := (h.basic n).made L hu
    have := Chain.C56_leaves_are_the_map (h.proj_exec hm) (h.proj_steps hm) (k := keyIn ((σ n).pre L) d) (n := n)
      (by rw [proj_eq hm]; exact hq L hu) r
    rw [proj_eq hm] at this
    rw [shift_keyIn hp]; exact this
  have tells : ∀ {L : Nat}, (σ n).up L = true → Under ((σ n).pre L) d → Agrees (map σ α d n) (C σ α L (keyIn ((σ n).pre L) d) n) _ :=
    fun hu hd => (h.good n).one _ d hu hd
  induction hw with
  | found hh =>
    intro hu hd hp
    have := tells hu hd
    rw [(base hu hd hp _).2 (.inl hh)] at this
    exact this
  | absent hh =>
    intro hu hd hp
    have := tells hu hd
    rw [(base hu hd hp _).2 (.inr ⟨rfl, hh⟩)] at this
    exact this
  | down hh _ ih =>
    intro hu hd hp
    obtain ⟨g1, g2, g3⟩ := h.goes_down hu hd hp ((base hu hd hp _).2 (.inl hh)) (Nat.le_refl n)
    exact ih g1 g2 g3

/-- **C57.** Whenever no leaf is locked, going down from the first layer through what the leaves say finds for every key exactly
what the map holds: across all layers nothing was lost, added, duplicated or altered by splits and conversions. -/
theorem C57_leaves_are_the_map (h : Exec f σ α) {n : Nat} {d : Bytes} (hq : ∀ L, (σ n).up L = true → ∀ x, ((σ n).layer L).hold x = .free)
    (r : Option V) : Walk (σ n) d 0 0 r ↔ map σ α d n = r := by
  obtain ⟨g1, g2, g3⟩ := h.root_under n d
  refine ⟨fun hw => h.walk hq hw g1 g2 g3, ?_⟩
  have key : ∀ (w L m : Nat), d.length < 8 * m + 8 * w → (σ n).up L = true → Under ((σ n).pre L) d →
      ((σ n).pre L).length = 8 * m → ∃ r, Walk (σ n) d L m r := by
    intro w
    induction w with
    | zero =>
      intro L m hw hu hd hp
      have := hd.1.length_le
      omega
    | succ w ih =>
      intro L m hw hu hd hp
      have hm := (h.basic n).made L hu
      have hb := Chain.C56_leaves_are_the_map (h.proj_exec hm) (h.proj_steps hm) (k := keyIn ((σ n).pre L) d) (n := n)
        (by rw [proj_eq hm]; exact hq L hu)
      rw [proj_eq hm] at hb
      have hk := shift_keyIn (d := d) hp
      have hs : Agrees (map σ α d n) (C σ α L (keyIn ((σ n).pre L) d) n) _ := (h.good n).one L d hu hd
      cases hc : C σ α L (keyIn ((σ n).pre L) d) n with
      | misread => rw [hc] at hs; exact absurd hs id
      | absent =>
        rcases (hb .absent).1 hc with hh | ⟨_, hh⟩
        · exact absurd rfl hh.ne.1
        · exact ⟨none, .absent (by rw [hk]; exact hh)⟩
      | value v =>
        rcases (hb (.value v)).1 hc with hh | ⟨e, _⟩
        · exact ⟨some v, .found (by rw [hk]; exact hh)⟩
        · cases e
      | descend q =>
        rcases (hb (.descend q)).1 hc with hh | ⟨e, _⟩
        · obtain ⟨k1, k2, k3⟩ := h.goes_down hu hd hp hc (Nat.le_refl n)
          obtain ⟨r, hr⟩ := ih q (m + 1) (by omega) k1 k2 k3
          exact ⟨r, .down (by rw [hk]; exact hh) hr⟩
        · cases e
  intro e
  obtain ⟨r', hr'⟩ := key (d.length + 1) 0 0 (by omega) g1 g2 g3
  have := h.walk hq hr' g1 g2 g3
  rw [← e, this]; exact hr'

/-! ## Witness -/

/-- The states of the execution that takes these actions from a state. -/
def trace (f : Bool) (s : St V) (as : List (Act V)) (n : Nat) : St V := (as.take n).foldl (act f) s

theorem trace_steps (f : Bool) (s : St V) (as : List (Act V)) : Steps f (trace f s as) (fun n => as[n]?) := by
  intro n
  unfold trace
  simp only
  by_cases hn : n < as.length
  · rw [List.getElem?_eq_getElem hn, List.take_succ_eq_append_getElem hn, List.foldl_append]; rfl
  · rw [List.getElem?_eq_none (by omega), List.take_of_length_le (by omega), List.take_of_length_le (by omega)]

/-- The empty tree. -/
def emptyTree : St Nat :=
  { layer := fun _ => Chain.emptyChain, pre := fun _ => [], made := fun z => z == 0, up := fun z => z == 0, job := fun _ => none }

theorem emptyTree_start : Start emptyTree :=
  ⟨Chain.emptyChain_start, Tree.size_initial, fun z => by simp [emptyTree], fun z => by simp [emptyTree], rfl, fun _ => rfl⟩

theorem trace_exec (f : Bool) (as : List (Act Nat)) : Exec f (trace f emptyTree as) (fun n => as[n]?) :=
  ⟨by simpa [trace] using emptyTree_start, trace_steps f emptyTree as⟩

/-- A key of 17 bytes that ends with `n`. -/
def deep (n : UInt8) : Bytes := [0, 0, 0, 0, 0, 0, 0, 3, 0, 0, 0, 0, 0, 0, 0, 5, n]

/-- The key `deep 9` is inserted with value 40.  A lookup of `deep 8` begins and reads the version.  An insert of `deep 8` with
value 50 meets the other key, makes two layers, stores the pointer to the first and unlocks.  The lookup goes on, through both
layers; before it enters the last one, the value becomes 51.  Then a lookup of `deep 9` by another thread; while it is in the
second layer, the value becomes 41. -/
def nested : List (Act Nat) :=
  [.inLayer 0 (.lock 1), .inLayer 0 (.write 1 0 3 64 (.val 40) (some [0, 0, 0, 0, 0, 0, 0, 5, 9])), .inLayer 0 (.publish 1 0 0),
   .inLayer 0 (.giveUp 1), .inLayer 0 (.hold 1), .inLayer 0 (.start 0 1 (Key.mk' (deep 8)))] ++ List.replicate 2 (.inLayer 0 (.read 0)) ++
  [.inLayer 0 (.lock 1), .convert 0 1 0 (deep 8) 50 [1, 2]] ++ List.replicate 4 (.inLayer 0 (.hold 1)) ++
  [.inLayer 0 (.giveUp 1), .inLayer 0 (.hold 1)] ++ List.replicate 13 (.inLayer 0 (.read 0)) ++
  [.inLayer 1 (.start 0 1 (Key.mk' (deep 8)).shift)] ++ List.replicate 7 (.inLayer 1 (.read 0)) ++
  [.inLayer 2 (.lock 1), .inLayer 2 (.update 1 0 51), .inLayer 2 (.giveUp 1), .inLayer 2 (.hold 1)] ++
  [.inLayer 2 (.start 0 1 (Key.mk' (deep 8)).shift.shift)] ++ List.replicate 7 (.inLayer 2 (.read 0)) ++
  [.inLayer 0 (.start 7 1 (Key.mk' (deep 9)))] ++ List.replicate 7 (.inLayer 0 (.read 7)) ++
  [.inLayer 1 (.start 7 1 (Key.mk' (deep 9)).shift)] ++ List.replicate 3 (.inLayer 1 (.read 7)) ++
  [.inLayer 2 (.lock 1), .inLayer 2 (.update 1 1 41), .inLayer 2 (.giveUp 1), .inLayer 2 (.hold 1)] ++
  List.replicate 4 (.inLayer 1 (.read 7)) ++
  [.inLayer 2 (.start 7 1 (Key.mk' (deep 9)).shift.shift)] ++ List.replicate 8 (.inLayer 2 (.read 7))

theorem lookup_of {σ : Nat → St Nat} {L i a b : Nat} {k : Key} {r : Out Nat} {saw : Bool} (h1 : a ≤ b)
    (h2 : ((σ a).layer L).rd i = .leaf 1 (.stable k)) (h3 : ∀ n, n < b → a ≤ n → Chain.ended (((σ n).layer L).rd i) = false)
    (h4 : ((σ b).layer L).rd i = .done k r saw) : Lookup (fun n => (σ n).layer L) i a b k r saw :=
by
  refine ⟨h1, ⟨1, h2⟩, fun n h5 h6 k' r' w e => ?_, h4⟩
  have := h3 n h6 h5
  rw [show ((σ n).layer L).rd i = _ from e] at this; cases this

theorem few_of {σ : Nat → St V} {a b : Nat} (h : b < 2 ^ 19) : Few σ a b := by
  intro L x
  have := Chain.releases_le_steps (fun n => (σ n).layer L) x b
  omega

/-- A lookup that begins before its key is inserted and ends after its value was replaced, going through the two layers that
the insert makes, meets the hypotheses of `C57_get_found_is_current`. -/
theorem C57_witness :
    let σ := trace false emptyTree nested
    let α := fun n => nested[n]?
    Exec false σ α ∧ Get σ 0 (deep 8) 0 0 6 49 (some 51) false ∧ Few σ 6 49 ∧ map σ α (deep 8) 6 = none ∧
      map σ α (deep 8) 30 = some 50 ∧ map σ α (deep 8) 49 = some 51 ∧ map σ α (deep 9) 49 = some 40 ∧
      (σ 49).up 1 = true ∧ (σ 49).up 2 = true ∧ (σ 49).pre 2 = (deep 8).take 16 := by
  refine ⟨trace_exec _ _, .down (b := 29) (q := 1) (c := 30) (w := false) (lookup_of (by omega) ?_ ?_ ?_) (by omega)
    (.down (b := 37) (q := 2) (c := 42) (w := false) (lookup_of (by omega) ?_ ?_ ?_) (by omega) (.found (lookup_of (by omega) ?_ ?_ ?_))),
    few_of (by decide), ?_, ?_, ?_, ?_, ?_, ?_, ?_⟩ <;> decide +kernel

theorem made_kept {as : List (Act Nat)} {m n : Nat} (hmn : m ≤ n) (h : ∀ a ∈ as.drop m, ∃ L c, a = .inLayer L c) :
    (trace false emptyTree as n).made = (trace false emptyTree as m).made := by
  obtain ⟨j, rfl⟩ := Nat.exists_eq_add_of_le hmn
  clear hmn
  induction j with
  | zero => rfl
  | succ j ih =>
    rw [← ih]
    have hs := trace_steps false emptyTree as (m + j)
    simp only at hs
    rw [show m + (j + 1) = m + j + 1 from rfl, hs]
    cases ea : as[m + j]? with
    | none => rfl
    | some a =>
      obtain ⟨L, c, rfl⟩ := h a (by
        rw [← List.getElem?_drop] at ea
        exact List.mem_of_getElem? ea)
      unfold act
      simp only
      split <;> rfl

/-- Conversions occur only when there are layers that are not yet in use. -/
theorem no_transit {as : List (Act Nat)} {n : Nat} {d : Bytes}
    (h : ∀ z, (trace false emptyTree as n).made z = true → (trace false emptyTree as n).up z = true) :
    ¬ InTransit (trace false emptyTree as n) d := by
  rintro ⟨L, hu, _, _, x, lv, t, q, st, e, _⟩
  obtain ⟨j, hj, hP⟩ := ((trace_exec false as).good n).pend L x lv t q st hu e
  obtain ⟨h1, h2, _⟩ := hP.idle q hP.head
  rw [h q h1] at h2; cases h2

def isIn : Act Nat → Bool
  | .inLayer _ _ => true
  | _ => false

theorem nested_made {n : Nat} (h : 14 ≤ n) {z : Nat} (hz : (trace false emptyTree nested n).made z = true) : z = 0 ∨ z = 1 ∨ z = 2 := by
  have hk := made_kept (as := nested) (m := 14) (n := n) h (by
    have : ∀ a ∈ nested.drop 14, isIn a = true := by decide +kernel
    intro a ha
    have := this a ha
    cases a with
    | inLayer L c => exact ⟨L, c, rfl⟩
    | convert => cases this)
  rw [hk] at hz
  have hz : (z == 0 || [1, 2].contains z) = true := hz
  simp at hz
  omega

/-- A lookup through the three layers, overtaken by an update, meets the hypotheses of `C57_get_linearizable`. -/
theorem C57_get_linearizable_witness :
    let σ := trace false emptyTree nested
    let α := fun n => nested[n]?
    Exec false σ α ∧ Get σ 7 (deep 9) 0 0 50 78 (some 41) false ∧ Few σ 50 78 ∧ (∀ j, 50 ≤ j → j ≤ 78 → ¬ InTransit (σ j) (deep 9)) ∧
      map σ α (deep 9) 50 = some 40 ∧ map σ α (deep 9) 78 = some 41 := by
  refine ⟨trace_exec _ _, .down (b := 57) (q := 1) (c := 58) (w := false) (lookup_of (by omega) ?_ ?_ ?_) (by omega)
    (.down (b := 69) (q := 2) (c := 70) (w := false) (lookup_of (by omega) ?_ ?_ ?_) (by omega) (.found (lookup_of (by omega) ?_ ?_ ?_))),
    few_of (by decide), ?_, ?_, ?_⟩
  case refine_10 =>
    intro j h1 _
    apply no_transit
    intro z hz
    have hup : ∀ z, z < 3 → (trace false emptyTree nested 14).up z = true := by decide +kernel
    have := nested_made (by omega) hz
    exact (trace_exec false nested).up_mono (m := 14) (by omega) (hup z (by omega))
  all_goals decide +kernel

/-- Inserts of all three kinds occur in that execution, and walks meet what they say they do. -/
theorem C57_insert_returns_previous_witness :
    let σ := trace false emptyTree nested
    (∃ a, nested[2]? = some a ∧ written (σ 2) (deep 9) a = some 40 ∧ returned (σ 2) a = none) ∧
      (∃ a, nested[13]? = some a ∧ written (σ 13) (deep 8) a = some 50 ∧ returned (σ 13) a = none) ∧
      (∃ a, nested[38]? = some a ∧ written (σ 38) (deep 8) a = some 51 ∧ returned (σ 38) a = some 50) := by
  refine ⟨⟨_, rfl, ?_, ?_⟩, ⟨_, rfl, ?_, ?_⟩, ⟨_, rfl, ?_, ?_⟩⟩ <;> decide +kernel

set_option maxRecDepth 100000 in
/-- At the end of that execution no leaf is locked, and the walk for `deep 9` goes through three layers. -/
theorem C57_leaves_are_the_map_witness :
    let σ := trace false emptyTree nested
    (∀ L, (σ 78).up L = true → ∀ x, ((σ 78).layer L).hold x = .free) ∧ Walk (σ 78) (deep 9) 0 0 (some 41) := by
  refine ⟨?_, .down (q := 1) ⟨1, 0, by decide +kernel, by decide +kernel, by decide +kernel, by decide +kernel⟩
    (.down (q := 2) ⟨1, 0, by decide +kernel, by decide +kernel, by decide +kernel, by decide +kernel⟩
      (.found ⟨1, 1, by decide +kernel, by decide +kernel, by decide +kernel, by decide +kernel⟩))⟩
  intro L hu x
  rcases nested_made (by omega) (((trace_exec false nested).basic 78).made L hu) with rfl | rfl | rfl
  all_goals
    match x with
    | 0 => decide +kernel
    | 1 => decide +kernel
    | x + 2 => rfl

end Verif.Forest
