import Verif.Spec.BagRace
/-!
# Invariant of the suffix bag under concurrent readers
-/
namespace Verif.BagRace
open Verif.Spec (Bytes)
open Verif.Suffix (LOp ksufKeylenx initialCapacity)
open Verif.Internode (upd)
open Verif.Spec.Suffix (LMap lstep lrun lcost ltotal LLegal)

/-- Suffix of a slot. -/
def Bag.view (b : Bag) (s : Nat) : Option Bytes :=
  if b.off s = none32 then none else some ((List.range (b.len s)).map fun i => b.mem (b.off s + i))

theorem view_congr {b c : Bag} {s : Nat} (ho : c.off s = b.off s) (hl : c.len s = b.len s)
    (hm : b.off s ≠ none32 → ∀ i, i < b.len s → c.mem (b.off s + i) = b.mem (b.off s + i)) : c.view s = b.view s := by
  unfold Bag.view
  rw [ho, hl]
  by_cases h : b.off s = none32
  · simp only [h, if_true]
  · simp only [h, if_false, Option.some.injEq]
    apply List.map_congr_left
    intro i hi
    exact hm h i (List.mem_range.mp hi)

theorem upd_same {α : Type} (f : Nat → α) (i : Nat) (a : α) : upd f i a i = a := by simp [upd]

theorem upd_ne {α : Type} {f : Nat → α} {i j : Nat} {a : α} (h : j ≠ i) : upd f i a j = f j := by simp [upd, h]

theorem upd_upd {α : Type} (f : Nat → α) (i : Nat) (a b : α) : upd (upd f i a) i b = upd f i b := by
  funext j; unfold upd; split <;> rfl

theorem setBytes_out {x : Bytes} {mem : Nat → UInt8} {o j : Nat} (h : j < o ∨ o + x.length ≤ j) : setBytes mem o x j = mem j := by
  induction x generalizing mem o with
  | nil => rfl
  | cons a x ih =>
    simp only [List.length_cons] at h
    simp only [setBytes]
    rw [ih (by omega), upd_ne (by omega)]

theorem setBytes_in {x : Bytes} {mem : Nat → UInt8} {o i : Nat} (h : i < x.length) : setBytes mem o x (o + i) = x[i] := by
  induction x generalizing mem o i with
  | nil => simp at h
  | cons a x ih =>
    simp only [setBytes]
    cases i with
    | zero => rw [setBytes_out (by omega)]; simp [upd]
    | succ i =>
      have := ih (mem := upd mem o a) (o := o + 1) (i := i) (by simpa using h)
      rw [show o + (i + 1) = o + 1 + i by omega, this]; rfl

theorem setBytes_map (x : Bytes) (mem : Nat → UInt8) (o : Nat) :
    (List.range x.length).map (fun i => setBytes mem o x (o + i)) = x := by
  apply List.ext_getElem
  · simp
  · intro i h1 h2
    simp only [List.getElem_map, List.getElem_range]
    exact setBytes_in h2

/-- Who owns the bags: the one in the leaf is not retired, all others are or are about to be. -/
structure Life (L : Mem) (ms : List Micro) : Prop where
  cur : ∀ p, L.ptr = some p → p < L.next ∧ L.ret p = none
  ret : ∀ p t, L.ret p = some t → p < L.next ∧ t < L.now
  own : ∀ p, p < L.next → L.ptr ≠ some p → L.ret p ≠ none ∨ Micro.retire p ∈ ms

/-- All ranges are within bounds, also when the offset was read before the present call began (`u`: length of the data then). -/
structure Stage (u : Nat) (L : Mem) (ms : List Micro) : Prop where
  life : Life L ms
  bag : ∀ p, p < L.next → ∀ s, s < 24 → (L.bag p).off s ≠ none32 → (L.bag p).off s + (L.bag p).len s ≤ (L.bag p).used
  cur : ∀ p, L.ptr = some p → u ≤ (L.bag p).used ∧ ∀ s, s < 24 → (L.bag p).off s ≠ none32 → (L.bag p).off s ≤ u

/-- The suffix in the leaf for a slot. -/
def Mem.suf (L : Mem) (t : Nat) : Option Bytes :=
  match L.ptr with
  | none => none
  | some p => (L.bag p).view t

/-- All slots but `k` hold what they should. -/
def Match (k : Nat) (m : LMap) (L : Mem) : Prop := ∀ t, t < 24 → t ≠ k → L.klx t = m.klx t ∧ L.suf t = m.suf t

/-- The next access stays clear of all slots but `k`.  `f`: the call stores only in slots without a suffix. -/
def Away (f : Prop) (u k : Nat) (L : Mem) : Micro → Prop
  | .byte i _ => ∃ p, L.ptr = some p ∧ ∀ t, t < 24 → t ≠ k → (L.bag p).off t ≠ none32 →
      i < (L.bag p).off t ∨ (L.bag p).off t + (L.bag p).len t ≤ i
  | .used n => ∃ p, L.ptr = some p ∧ (L.bag p).used ≤ n
  | .off s _ => s = k
  | .len s l => s = k ∧ ∃ p, L.ptr = some p ∧ (l ≤ (L.bag p).len s ∨ u + l ≤ (L.bag p).used) ∧
      (f → (L.bag p).len s ≤ l)
  | .klx s _ => s = k
  | .publish _ => True
  | .retire p => p < L.next ∧ L.ptr ≠ some p ∧ L.ret p = none

/-- Between two calls. -/
structure Quiet (L : Mem) (m : LMap) (n : Nat) : Prop where
  klx : ∀ t, t < 24 → L.klx t = m.klx t
  suf : ∀ t, t < 24 → L.suf t = m.suf t
  used : ∀ p, L.ptr = some p → (L.bag p).used ≤ n
  zero : ∀ p, L.ptr = some p → ∀ t, t < 24 → (L.bag p).off t = none32 → (L.bag p).len t = 0
  disj : ∀ p, L.ptr = some p → ∀ t v, t < 24 → v < 24 → t ≠ v → (L.bag p).off t ≠ none32 → (L.bag p).off v ≠ none32 →
    (L.bag p).off t + (L.bag p).len t ≤ (L.bag p).off v ∨ (L.bag p).off v + (L.bag p).len v ≤ (L.bag p).off t

/-- The rest of a call keeps everything in order at every access and ends as specified. -/
def Good (f : Prop) (u k : Nat) (m : LMap) (n : Nat) : Mem → List Micro → Prop
  | L, [] => Stage u L [] ∧ Quiet L m n
  | L, a :: ms => Stage u L (a :: ms) ∧ Match k m L ∧ Away f u k L a ∧ Good f u k m n (a.app L) ms

theorem Good.stage {f : Prop} {u k n : Nat} {m : LMap} {L : Mem} {ms : List Micro} (h : Good f u k m n L ms) : Stage u L ms := by
  cases ms <;> exact h.1

theorem Good.match {f : Prop} {u k n : Nat} {m : LMap} {L : Mem} {ms : List Micro} (h : Good f u k m n L ms) : Match k m L := by
  cases ms with
  | nil => exact fun t ht _ => ⟨h.2.klx t ht, h.2.suf t ht⟩
  | cons a ms => exact h.2.1

/-- The leaf with another bag at `p`. -/
def Mem.set (L : Mem) (p : Nat) (b : Bag) : Mem := { L with bag := upd L.bag p b }

theorem set_self (L : Mem) (p : Nat) : L.set p (L.bag p) = L := by
  have : upd L.bag p (L.bag p) = L.bag := by
    funext j; unfold upd; split
    · next h => rw [h]
    · rfl
  simp only [Mem.set, this]

theorem onBag_set {L : Mem} {p : Nat} (h : L.ptr = some p) (b : Bag) (f : Bag → Bag) : (L.set p b).onBag f = L.set p (f b) := by
  simp only [Mem.onBag, Mem.set, h, upd_same, upd_upd]

theorem app_byte {L : Mem} {p : Nat} (h : L.ptr = some p) (b : Bag) (i : Nat) (x : UInt8) :
    (Micro.byte i x).app (L.set p b) = L.set p { b with mem := upd b.mem i x } := by
  simp only [Micro.app]; exact onBag_set h b _

theorem app_used {L : Mem} {p : Nat} (h : L.ptr = some p) (b : Bag) (n : Nat) :
    (Micro.used n).app (L.set p b) = L.set p { b with used := n } := by
  simp only [Micro.app]; exact onBag_set h b _

theorem app_off {L : Mem} {p : Nat} (h : L.ptr = some p) (b : Bag) (s o : Nat) :
    (Micro.off s o).app (L.set p b) = L.set p { b with off := upd b.off s o } := by
  simp only [Micro.app]; exact onBag_set h b _

theorem app_len {L : Mem} {p : Nat} (h : L.ptr = some p) (b : Bag) (s l : Nat) :
    (Micro.len s l).app (L.set p b) = L.set p { b with len := upd b.len s l } := by
  simp only [Micro.app]; exact onBag_set h b _

/-- What is needed of the bag in the leaf while it is being changed. -/
structure BagOk (u k : Nat) (m : LMap) (b : Bag) : Prop where
  le : u ≤ b.used
  off : ∀ s, s < 24 → b.off s ≠ none32 → b.off s ≤ u
  fits : ∀ s, s < 24 → b.off s ≠ none32 → b.off s + b.len s ≤ b.used
  view : ∀ t, t < 24 → t ≠ k → b.view t = m.suf t

/-- What is needed of the rest of the leaf. -/
structure Base (u k p : Nat) (m : LMap) (L : Mem) : Prop where
  ptr : L.ptr = some p
  life : Life L []
  bag : ∀ q, q < L.next → q ≠ p → ∀ s, s < 24 → (L.bag q).off s ≠ none32 → (L.bag q).off s + (L.bag q).len s ≤ (L.bag q).used
  klx : ∀ t, t < 24 → t ≠ k → L.klx t = m.klx t

theorem Life.more {L : Mem} (h : Life L []) (ms : List Micro) : Life L ms :=
  ⟨h.cur, h.ret, fun p hp hq => by
    rcases h.own p hp hq with h | h
    · exact .inl h
    · simp at h⟩

theorem Base.stage {u k p : Nat} {m : LMap} {L : Mem} (h : Base u k p m L) {b : Bag} (hb : BagOk u k m b) (ms : List Micro) :
    Stage u (L.set p b) ms := by
  have hl := h.life.more ms
  refine ⟨⟨hl.cur, hl.ret, hl.own⟩, ?_, ?_⟩
  · intro q hq s hs hn
    by_cases e : q = p
    · subst e
      simp only [Mem.set, upd_same] at hn ⊢
      exact hb.fits s hs hn
    · simp only [Mem.set, upd_ne e] at hn ⊢
      exact h.bag q hq e s hs hn
  · intro q hq
    have e : q = p := by
      have : L.ptr = some q := hq
      rw [h.ptr] at this; cases this; rfl
    subst e
    simp only [Mem.set, upd_same]
    exact ⟨hb.le, hb.off⟩

theorem Base.matches {u k p : Nat} {m : LMap} {L : Mem} (h : Base u k p m L) {b : Bag} (hb : BagOk u k m b) : Match k m (L.set p b) := by
  intro t ht hk
  refine ⟨h.klx t ht hk, ?_⟩
  simp only [Mem.suf, Mem.set, h.ptr, upd_same]
  exact hb.view t ht hk

/-- One access to the bag in the leaf. -/
theorem good_step {f : Prop} {u k p n : Nat} {m : LMap} {L : Mem} (h : Base u k p m L) {b c : Bag} (hb : BagOk u k m b) {a : Micro} {ms : List Micro}
    (ha : Away f u k (L.set p b) a) (hc : a.app (L.set p b) = L.set p c) (hg : Good f u k m n (L.set p c) ms) :
    Good f u k m n (L.set p b) (a :: ms) :=
  ⟨h.stage hb _, h.matches hb, ha, by rw [hc]; exact hg⟩

/-- Copying bytes to a place that belongs to no other slot. -/
theorem good_bytes {f : Prop} {u k p n : Nat} {m : LMap} {L : Mem} (h : Base u k p m L) {x : Bytes} {o : Nat} {b : Bag} {ms : List Micro}
    (hb : BagOk u k m b)
    (hd : ∀ t, t < 24 → t ≠ k → b.off t ≠ none32 → b.off t + b.len t ≤ o ∨ o + x.length ≤ b.off t)
    (hg : BagOk u k m { b with mem := setBytes b.mem o x } → Good f u k m n (L.set p { b with mem := setBytes b.mem o x }) ms) :
    Good f u k m n (L.set p b) (bytesAt o x ++ ms) := by
  induction x generalizing o b with
  | nil => exact hg hb
  | cons a x ih =>
    simp only [List.length_cons] at hd
    have hd' : ∀ t, t < 24 → t ≠ k → b.off t ≠ none32 → o < b.off t ∨ b.off t + b.len t ≤ o := by
      intro t ht hk hn
      have := hd t ht hk hn
      omega
    have hb' : BagOk u k m { b with mem := upd b.mem o a } := by
      refine ⟨hb.le, hb.off, hb.fits, fun t ht hk => ?_⟩
      rw [← hb.view t ht hk]
      refine view_congr rfl rfl fun hn i hi => ?_
      have := hd' t ht hk hn
      exact upd_ne (by omega)
    refine good_step h hb (c := { b with mem := upd b.mem o a }) ?_ (app_byte h.ptr b o a) ?_
    · refine ⟨p, h.ptr, ?_⟩
      simp only [Mem.set, upd_same]
      exact hd'
    · refine ih hb' (fun t ht hk hn => ?_) hg
      have := hd t ht hk hn
      simp only
      omega

/-- The two stores of the metadata of slot `k`. -/
theorem good_meta {f : Prop} {u k p n o l : Nat} {m : LMap} {L : Mem} (h : Base u k p m L) {b : Bag} {ms : List Micro} (swap : Bool)
    (hb : BagOk u k m b) (ho : o ≤ u) (hol : o + l ≤ b.used) (hl : l ≤ b.len k ∨ u + l ≤ b.used) (ho' : o + b.len k ≤ b.used)
    (hl' : b.off k ≠ none32 → b.off k + l ≤ b.used) (hf : f → b.len k ≤ l)
    (hg : BagOk u k m { b with off := upd b.off k o, len := upd b.len k l } →
      Good f u k m n (L.set p { b with off := upd b.off k o, len := upd b.len k l }) ms) :
    Good f u k m n (L.set p b) (metaAt swap k o l ++ ms) := by
  have view : ∀ (c : Bag) t, t < 24 → t ≠ k → (c.off t = b.off t) → c.len t = b.len t → c.mem = b.mem → c.view t = m.suf t := by
    intro c t ht hk h1 h2 h3
    rw [← hb.view t ht hk]
    exact view_congr h1 h2 fun _ i _ => by rw [h3]
  have h1 : BagOk u k m { b with off := upd b.off k o } := by
    refine ⟨hb.le, ?_, ?_, fun t ht hk => view _ t ht hk (upd_ne hk) rfl rfl⟩ <;>
    · intro s hs hn
      by_cases e : s = k
      · subst e; simp only [upd_same] at hn ⊢; omega
      · simp only [upd_ne e] at hn ⊢
        have := hb.off s hs hn
        have := hb.fits s hs hn
        omega
  have h2 : BagOk u k m { b with len := upd b.len k l } := by
    refine ⟨hb.le, hb.off, ?_, fun t ht hk => view _ t ht hk rfl (upd_ne hk) rfl⟩
    intro s hs hn
    by_cases e : s = k
    · subst e; simp only [upd_same] at hn ⊢; exact hl' hn
    · simp only [upd_ne e] at hn ⊢
      exact hb.fits s hs hn
  have h3 : BagOk u k m { b with off := upd b.off k o, len := upd b.len k l } := by
    refine ⟨hb.le, h1.off, ?_, fun t ht hk => view _ t ht hk (upd_ne hk) (upd_ne hk) rfl⟩
    intro s hs hn
    by_cases e : s = k
    · subst e; simp only [upd_same] at hn ⊢; exact hol
    · simp only [upd_ne e] at hn ⊢
      exact hb.fits s hs hn
  have hlen : ∀ c : Bag, c.len = b.len → c.used = b.used → Away f u k (L.set p c) (.len k l) := by
    intro c e1 e2
    refine ⟨rfl, p, h.ptr, ?_⟩
    simp only [Mem.set, upd_same, e1, e2]
    exact ⟨hl, hf⟩
  unfold metaAt
  cases swap
  · simp only [Bool.false_eq_true, if_false, List.cons_append, List.nil_append]
    exact good_step h hb rfl (app_off h.ptr b k o) (good_step h h1 (hlen _ rfl rfl) (app_len h.ptr _ k l) (hg h3))
  · simp only [if_true, List.cons_append, List.nil_append]
    exact good_step h hb (hlen _ rfl rfl) (app_len h.ptr b k l) (good_step h h2 rfl (app_off h.ptr _ k o) (hg h3))

/-- Length of the data when a call begins. -/
def Mem.used0 (L : Mem) : Nat :=
  match L.ptr with
  | none => 0
  | some p => (L.bag p).used

theorem Stage.restart {u : Nat} {L : Mem} (h : Stage u L []) : Stage L.used0 L [] := by
  refine ⟨h.life, h.bag, fun p hp => ?_⟩
  have e : L.used0 = (L.bag p).used := by simp only [Mem.used0, hp]
  rw [e]
  refine ⟨Nat.le_refl _, fun s hs hn => ?_⟩
  have := h.bag p (h.life.cur p hp).1 s hs hn
  omega

theorem lstep_other {m : LMap} {o : LOp} {k t : Nat} (ho : slotOf o = some k) (h : t ≠ k) :
    (lstep m o).klx t = m.klx t ∧ (lstep m o).suf t = m.suf t := by
  cases o <;> simp only [slotOf, Option.some.injEq, reduceCtorEq] at ho <;> subst ho <;> simp [lstep, h]

/-- The last store of a call: the key length. -/
theorem good_klx {f : Prop} {u k n v : Nat} {m : LMap} {L : Mem} (hs : Stage u L []) (hm : Match k m L) (hv : k < 24 → m.klx k = v)
    (hk : L.suf k = m.suf k)
    (used : ∀ p, L.ptr = some p → (L.bag p).used ≤ n)
    (zero : ∀ p, L.ptr = some p → ∀ t, t < 24 → (L.bag p).off t = none32 → (L.bag p).len t = 0)
    (disj : ∀ p, L.ptr = some p → ∀ t v, t < 24 → v < 24 → t ≠ v → (L.bag p).off t ≠ none32 → (L.bag p).off v ≠ none32 →
      (L.bag p).off t + (L.bag p).len t ≤ (L.bag p).off v ∨ (L.bag p).off v + (L.bag p).len v ≤ (L.bag p).off t) :
    Good f u k m n L [.klx k v] := by
  have hl := hs.life.more [.klx k v]
  refine ⟨⟨hl, hs.bag, hs.cur⟩, hm, rfl, ⟨⟨hs.life.cur, hs.life.ret, hs.life.own⟩, hs.bag, hs.cur⟩, ?_, ?_, used, zero, disj⟩
  · intro t ht
    by_cases e : t = k
    · subst e
      simp only [Micro.app, upd_same]; exact (hv ht).symm
    · simp only [Micro.app, upd_ne e]; exact (hm t ht e).1
  · intro t ht
    by_cases e : t = k
    · subst e; exact hk
    · exact (hm t ht e).2

/-- Publishing a new bag and retiring the old one. -/
theorem good_publish {f : Prop} {k n v : Nat} {m m' : LMap} {L : Mem} {b : Bag} (hs : Stage L.used0 L []) (hq : Quiet L m n) (n' : Nat)
    (hm : ∀ t, t < 24 → t ≠ k → m'.klx t = m.klx t ∧ m'.suf t = m.suf t) (hv : k < 24 → m'.klx k = v)
    (le : L.used0 ≤ b.used) (off : ∀ s, s < 24 → b.off s ≠ none32 → b.off s ≤ L.used0)
    (fits : ∀ s, s < 24 → b.off s ≠ none32 → b.off s + b.len s ≤ b.used)
    (view : ∀ t, t < 24 → t ≠ k → b.view t = L.suf t) (hk : b.view k = m'.suf k) (used : b.used ≤ n')
    (zero : ∀ t, t < 24 → b.off t = none32 → b.len t = 0)
    (disj : ∀ t v, t < 24 → v < 24 → t ≠ v → b.off t ≠ none32 → b.off v ≠ none32 →
      b.off t + b.len t ≤ b.off v ∨ b.off v + b.len v ≤ b.off t) :
    Good f L.used0 k m' n' L (.publish b :: (match L.ptr with | some p => [.retire p] | none => []) ++ [.klx k v]) := by
  have hM : Match k m' L := fun t ht hk => by
    rw [(hm t ht hk).1, (hm t ht hk).2]; exact ⟨hq.klx t ht, hq.suf t ht⟩
  have hL := hs.life
  -- the state after publishing, with any retirement information
  have key : ∀ (L' : Mem) (ms : List Micro), L'.bag = upd L.bag L.next b → L'.ptr = some L.next → L'.next = L.next + 1 → L'.klx = L.klx →
      Life L' ms → Stage L.used0 L' ms ∧ Match k m' L' := by
    intro L' ms e1 e2 e3 e4 hl
    refine ⟨⟨hl, ?_, ?_⟩, ?_⟩
    · intro p hp s hs' hn
      rw [e1] at hn ⊢
      by_cases e : p = L.next
      · subst e; simp only [upd_same] at hn ⊢; exact fits s hs' hn
      · simp only [upd_ne e] at hn ⊢; exact hs.bag p (by omega) s hs' hn
    · intro p hp
      rw [e2] at hp; cases hp
      rw [e1]; simp only [upd_same]
      exact ⟨le, off⟩
    · intro t ht hk
      refine ⟨by rw [e4]; exact (hM t ht hk).1, ?_⟩
      simp only [Mem.suf, e2, e1, upd_same]
      rw [view t ht hk]; exact (hM t ht hk).2
  have fin : ∀ (L' : Mem), L'.bag = upd L.bag L.next b → L'.ptr = some L.next → L'.next = L.next + 1 → L'.klx = L.klx →
      Life L' [] → Good f L.used0 k m' n' L' [.klx k v] := by
    intro L' e1 e2 e3 e4 hl
    obtain ⟨h1, h2⟩ := key L' [] e1 e2 e3 e4 hl
    refine good_klx h1 h2 hv ?_ ?_ ?_ ?_
    · simp only [Mem.suf, e2, e1, upd_same]; exact hk
    all_goals
      intro p hp
      rw [e2] at hp; cases hp
      rw [e1]; simp only [upd_same]
      assumption
  have hret : L.ret L.next = none := by
    cases h : L.ret L.next with
    | none => rfl
    | some t => exact absurd (hL.ret _ t h).1 (Nat.lt_irrefl _)
  refine ⟨⟨hL.more _, hs.bag, hs.cur⟩, hM, trivial, ?_⟩
  cases hp : L.ptr with
  | none =>
    simp only
    refine fin _ rfl rfl rfl rfl ⟨?_, ?_, ?_⟩
    · intro q hq'
      simp only [Micro.app, Option.some.injEq] at hq' ⊢
      subst hq'
      exact ⟨by omega, hret⟩
    · intro q t hq'
      have := hL.ret q t hq'
      simp only [Micro.app]
      exact ⟨by omega, this.2⟩
    · intro q hq1 hq2
      simp only [Micro.app, ne_eq, Option.some.injEq] at hq1 hq2 ⊢
      have := hL.own q (by omega) (by rw [hp]; simp)
      exact this
  | some p =>
    have hpn := hL.cur p hp
    have hl1 : Life (Micro.app (.publish b) L) [.retire p, .klx k v] := by
      refine ⟨?_, ?_, ?_⟩
      · intro q hq'
        simp only [Micro.app, Option.some.injEq] at hq' ⊢
        subst hq'
        exact ⟨by omega, hret⟩
      · intro q t hq'
        have := hL.ret q t hq'
        simp only [Micro.app]
        exact ⟨by omega, this.2⟩
      · intro q hq1 hq2
        simp only [Micro.app, ne_eq, Option.some.injEq] at hq1 hq2 ⊢
        by_cases e : q = p
        · subst e; right; simp
        · left
          have := hL.own q (by omega) (by rw [hp]; simp only [ne_eq, Option.some.injEq]; omega)
          simpa using this
    obtain ⟨h1, h2⟩ := key (Micro.app (.publish b) L) _ rfl rfl rfl rfl hl1
    refine ⟨h1, h2, ?_, ?_⟩
    · refine ⟨by simp only [Micro.app]; omega, ?_, hpn.2⟩
      simp only [Micro.app, ne_eq, Option.some.injEq]; omega
    · refine fin _ rfl rfl rfl rfl ⟨?_, ?_, ?_⟩
      · intro q hq'
        simp only [Micro.app, Option.some.injEq] at hq' ⊢
        subst hq'
        refine ⟨by omega, ?_⟩
        rw [upd_ne (by omega)]; exact hret
      · intro q t hq'
        simp only [Micro.app] at hq' ⊢
        by_cases e : q = p
        · subst e; rw [upd_same] at hq'; cases hq'; omega
        · rw [upd_ne e] at hq'
          have := hL.ret q t hq'
          omega
      · intro q hq1 hq2
        simp only [Micro.app, ne_eq, Option.some.injEq] at hq1 hq2 ⊢
        left
        by_cases e : q = p
        · subst e; rw [upd_same]; simp
        · rw [upd_ne e]
          have := hL.own q (by omega) (by rw [hp]; simp only [ne_eq, Option.some.injEq]; omega)
          simpa using this

/-- Appending to a private copy. -/
theorem good_appended {f : Prop} {L : Mem} {m : LMap} {n u s ccap grow : Nat} {x : Bytes} {b : Bag} (hs : Stage u L []) (hq : Quiet L m n)
    (hb : b.used = L.used0) (h24 : s < 24) (hx : x.length < 2 ^ 16) (hn : n + x.length < none32)
    (hu : b.used ≤ n)
    (fits : ∀ s, s < 24 → b.off s ≠ none32 → b.off s + b.len s ≤ b.used)
    (view : ∀ t, t < 24 → b.view t = L.suf t)
    (zero : ∀ t, t < 24 → b.off t = none32 → b.len t = 0)
    (disj : ∀ t v, t < 24 → v < 24 → t ≠ v → b.off t ≠ none32 → b.off v ≠ none32 →
      b.off t + b.len t ≤ b.off v ∨ b.off v + b.len v ≤ b.off t) :
    Good f L.used0 s (lstep m (.assign s x ccap grow)) (n + x.length) L
      (.publish (b.appended s x grow) :: (match L.ptr with | some p => [.retire p] | none => []) ++ [.klx s ksufKeylenx]) := by
  have e1 : b.used % 2 ^ 32 = b.used := Nat.mod_eq_of_lt (by unfold none32 at hn; omega)
  have e2 : x.length % 2 ^ 16 = x.length := Nat.mod_eq_of_lt hx
  have hne : b.used ≠ none32 := by omega
  refine good_publish hs.restart hq _ (fun t _ hk => lstep_other rfl hk) (fun _ => by simp [lstep, ksufKeylenx]) ?_ ?_ ?_ ?_ ?_ ?_ ?_ ?_
  · simp only [Bag.appended]; omega
  · intro t ht hn
    by_cases e : t = s
    · subst e; simp only [Bag.appended, upd_same, e1] at hn ⊢; omega
    · simp only [Bag.appended, upd_ne e] at hn ⊢
      have := fits t ht hn; omega
  · intro t ht hn
    by_cases e : t = s
    · subst e; simp only [Bag.appended, upd_same, e1, e2]; omega
    · simp only [Bag.appended, upd_ne e] at hn ⊢
      have := fits t ht hn; omega
  · intro t ht hk
    rw [← view t ht]
    refine view_congr (upd_ne hk) (upd_ne hk) fun hn i hi => ?_
    have := fits t ht hn
    exact setBytes_out (by omega)
  · unfold Bag.view
    simp only [Bag.appended, upd_same, e1, e2, hne, if_false, lstep, if_true, Option.some.injEq]
    exact setBytes_map x _ _
  · simp only [Bag.appended]; omega
  · intro t ht hn
    by_cases e : t = s
    · subst e; simp only [Bag.appended, upd_same, e1] at hn; exact absurd hn hne
    · simp only [Bag.appended, upd_ne e] at hn ⊢; exact zero t ht hn
  · intro t v ht hv htv h1 h2
    by_cases e : t = s
    · subst e
      have e' : v ≠ t := fun h => htv h.symm
      simp only [Bag.appended, upd_same, upd_ne e', e1] at h2 ⊢
      have := fits v hv h2; omega
    · by_cases e' : v = s
      · subst e'
        simp only [Bag.appended, upd_same, upd_ne e, e1] at h1 ⊢
        have := fits t ht h1; omega
      · simp only [Bag.appended, upd_ne e, upd_ne e'] at h1 h2 ⊢
        exact disj t v ht hv htv h1 h2

theorem plan_good {f : Prop} {L : Mem} {m : LMap} {n u k : Nat} {o : LOp} (swap : Bool) (hs : Stage u L []) (hq : Quiet L m n) (hl : LLegal o)
    (hk : slotOf o = some k) (hn : n + lcost o < none32)
    (hf : f → ∀ s x c g, o = .assign s x c g → m.suf s = none) :
    Good f L.used0 k (lstep m o) (n + lcost o) L (plan L swap o) := by
  have hs0 := hs.restart
  cases o with
  | compact => simp [slotOf] at hk
  | setKlx s v =>
    simp only [slotOf, Option.some.injEq] at hk; subst hk
    refine good_klx hs0 (fun t ht hk => ?_) (fun _ => by simp [lstep]) ?_ hq.used hq.zero hq.disj
    · rw [(lstep_other (m := m) rfl hk).1, (lstep_other (m := m) rfl hk).2]; exact ⟨hq.klx t ht, hq.suf t ht⟩
    · exact hq.suf s hl
  | clear s ccap =>
    simp only [slotOf, Option.some.injEq] at hk; subst hk
    have hl : s < 24 := hl
    unfold plan
    cases hp : L.ptr with
    | none =>
      simp only
      refine good_klx hs0 (fun t ht hk => ?_) (fun _ => by simp [lstep]) ?_ hq.used hq.zero hq.disj
      · rw [(lstep_other (m := m) rfl hk).1, (lstep_other (m := m) rfl hk).2]; exact ⟨hq.klx t ht, hq.suf t ht⟩
      · simp [Mem.suf, hp, lstep]
    | some p =>
      have hu : L.used0 = (L.bag p).used := by simp only [Mem.used0, hp]
      have := good_publish (f := f) (k := s) (v := 0) (m' := lstep m (.clear s ccap)) (b := ((L.bag p).clone ccap).cleared s) hs0 hq (n + lcost (.clear s ccap))
        (fun t _ hk => lstep_other rfl hk) (fun _ => by simp [lstep]) ?_ ?_ ?_ ?_ ?_ ?_ ?_ ?_
      · simp only [hp] at this; exact this
      · rw [hu]; exact Nat.le_refl _
      · intro t ht hn
        by_cases e : t = s
        · subst e; simp [Bag.cleared, Bag.clone, upd_same] at hn
        · simp only [Bag.cleared, Bag.clone, upd_ne e] at hn ⊢
          exact (hs0.cur p hp).2 t ht hn
      · intro t ht hn
        by_cases e : t = s
        · subst e; simp [Bag.cleared, Bag.clone, upd_same] at hn
        · simp only [Bag.cleared, Bag.clone, upd_ne e] at hn ⊢
          exact hs0.bag p (hs0.life.cur p hp).1 t ht hn
      · intro t ht hk
        simp only [Mem.suf, hp]
        exact view_congr (upd_ne hk) (upd_ne hk) fun _ _ _ => rfl
      · simp [Bag.view, Bag.cleared, Bag.clone, upd_same, lstep]
      · have := hq.used p hp
        simp only [Bag.cleared, Bag.clone]; omega
      · intro t ht hn
        by_cases e : t = s
        · subst e; simp [Bag.cleared, Bag.clone, upd_same]
        · simp only [Bag.cleared, Bag.clone, upd_ne e] at hn ⊢; exact hq.zero p hp t ht hn
      · intro t v ht hv htv h1 h2
        by_cases e : t = s
        · subst e; simp [Bag.cleared, Bag.clone, upd_same] at h1
        · by_cases e' : v = s
          · subst e'; simp [Bag.cleared, Bag.clone, upd_same] at h2
          · simp only [Bag.cleared, Bag.clone, upd_ne e, upd_ne e'] at h1 h2 ⊢
            exact hq.disj p hp t v ht hv htv h1 h2
  | assign s x ccap grow =>
    simp only [slotOf, Option.some.injEq] at hk; subst hk
    obtain ⟨h24, hx⟩ : s < 24 ∧ x.length < 2 ^ 16 := hl
    have hn : n + x.length < none32 := hn
    have e2 : x.length % 2 ^ 16 = x.length := Nat.mod_eq_of_lt hx
    show Good f L.used0 s (lstep m (.assign s x ccap grow)) (n + x.length) L _
    unfold plan
    cases hp : L.ptr with
    | none =>
      have := good_appended (f := f) (ccap := ccap) (grow := grow) (b := Bag.new) hs hq (by simp [Mem.used0, hp, Bag.new]) h24 hx hn (by simp [Bag.new])
        (fun t _ h => absurd rfl h) (fun t _ => by simp [Mem.suf, hp, Bag.view, Bag.new]) (fun t _ _ => rfl)
        (fun t v _ _ _ h => absurd rfl h)
      simp only [hp] at this ⊢
      exact this
    | some p =>
      have hu : L.used0 = (L.bag p).used := by simp only [Mem.used0, hp]
      have hun := hq.used p hp
      have hcur := hs0.cur p hp
      have hfit := hs0.bag p (hs0.life.cur p hp).1
      have hview : ∀ t, t < 24 → (L.bag p).view t = L.suf t := fun t _ => by simp only [Mem.suf, hp]
      have base : Base L.used0 s p (lstep m (.assign s x ccap grow)) L := by
        refine ⟨hp, hs0.life, fun q hq _ => hs0.bag q hq, fun t ht hk => ?_⟩
        rw [(lstep_other (m := m) rfl hk).1]; exact hq.klx t ht
      have ok : BagOk L.used0 s (lstep m (.assign s x ccap grow)) (L.bag p) := by
        refine ⟨hcur.1, hcur.2, hfit, fun t ht hk => ?_⟩
        rw [(lstep_other (m := m) rfl hk).2, hview t ht]; exact hq.suf t ht
      have hset := set_self L p
      simp only
      split
      · next hr =>
        have hfs := hfit s h24 hr.1
        rw [List.append_assoc]
        have := good_bytes (f := f) (n := n + x.length) (ms := metaAt swap s ((L.bag p).off s) (x.length % 2 ^ 16) ++ [.klx s ksufKeylenx]) base (x := x)
          (o := (L.bag p).off s) ok ?_ ?_
        · rw [hset] at this; exact this
        · intro t ht hk hn
          have := hq.disj p hp s t h24 ht (fun h => hk h.symm) hr.1 hn
          omega
        · intro hb
          refine good_meta base swap hb ?_ ?_ ?_ ?_ ?_ ?_ ?_
          · have := hcur.2 s h24 hr.1; omega
          · simp only; omega
          · left; simp only; omega
          · simp only; exact hfs
          · intro _; simp only; omega
          · intro h
            have := hf h s x ccap grow rfl
            rw [← hq.suf s h24, ← hview s h24, Bag.view, if_neg hr.1] at this
            cases this
          · intro hb
            refine good_klx (base.stage hb []) (base.matches hb) (fun _ => by simp [lstep, ksufKeylenx]) ?_ ?_ ?_ ?_
            · simp only [Mem.suf, Mem.set, hp, upd_same, Bag.view, hr.1, if_false, lstep, if_true, Option.some.injEq, e2]
              exact setBytes_map x _ _
            · intro q hq'
              have : some p = some q := by rw [← hp]; exact hq'
              cases this
              simp only [Mem.set, upd_same]; omega
            · intro q hq' t ht hn
              have : some p = some q := by rw [← hp]; exact hq'
              cases this
              simp only [Mem.set, upd_same] at hn ⊢
              by_cases e : t = s
              · subst e; rw [upd_same] at hn; exact absurd hn hr.1
              · rw [upd_ne e] at hn ⊢; exact hq.zero p hp t ht hn
            · intro q hq' t v ht hv htv h1 h2
              have : some p = some q := by rw [← hp]; exact hq'
              cases this
              simp only [Mem.set, upd_same] at h1 h2 ⊢
              by_cases e : t = s
              · subst e
                have e' : v ≠ t := fun h => htv h.symm
                rw [upd_ne e'] at h2
                rw [upd_same, upd_same, upd_ne e', upd_ne e']
                have := hq.disj p hp t v ht hv htv hr.1 h2
                omega
              · by_cases e' : v = s
                · subst e'
                  rw [upd_ne e] at h1
                  rw [upd_same, upd_same, upd_ne e, upd_ne e]
                  have := hq.disj p hp t v ht hv htv h1 hr.1
                  omega
                · simp only [upd_ne e, upd_ne e'] at h1 h2 ⊢
                  exact hq.disj p hp t v ht hv htv h1 h2
      · next hr =>
        split
        · next hroom =>
          have e1 : (L.bag p).used % 2 ^ 32 = (L.bag p).used := Nat.mod_eq_of_lt (by unfold none32 at hn; omega)
          have hne : (L.bag p).used ≠ none32 := by omega
          have hlen : (L.bag p).len s ≤ x.length := by
            by_cases h : (L.bag p).off s = none32
            · rw [hq.zero p hp s h24 h]; exact Nat.zero_le _
            · have : ¬ x.length ≤ (L.bag p).len s := fun h' => hr ⟨h, h'⟩
              omega
          rw [List.append_assoc]
          have := good_bytes (f := f) (n := n + x.length) (ms := .used ((L.bag p).used + x.length) ::
            metaAt swap s ((L.bag p).used % 2 ^ 32) (x.length % 2 ^ 16) ++ [.klx s ksufKeylenx]) base (x := x)
            (o := (L.bag p).used) ok ?_ ?_
          · rw [hset] at this; exact this
          · intro t ht hk hn
            exact .inl (hfit t ht hn)
          · intro hb
            refine good_step base hb (c := { L.bag p with mem := setBytes (L.bag p).mem (L.bag p).used x, used := (L.bag p).used + x.length })
              ?_ (app_used hp _ _) ?_
            · refine ⟨p, hp, ?_⟩
              simp only [Mem.set, upd_same]; omega
            have hb' : BagOk L.used0 s (lstep m (.assign s x ccap grow))
                { L.bag p with mem := setBytes (L.bag p).mem (L.bag p).used x, used := (L.bag p).used + x.length } := by
              refine ⟨by simp only; omega, hb.off, fun t ht hn => ?_, fun t ht hk => ?_⟩
              · have := hfit t ht hn
                simp only; omega
              · rw [← hb.view t ht hk]; exact view_congr rfl rfl fun _ _ _ => rfl
            refine good_meta base swap hb' ?_ ?_ ?_ ?_ ?_ ?_ ?_
            · omega
            · simp only; omega
            · right; simp only; omega
            · simp only; omega
            · intro h
              have := hcur.2 s h24 h
              simp only; omega
            · intro _; simp only; omega
            · intro hb
              refine good_klx (base.stage hb []) (base.matches hb) (fun _ => by simp [lstep, ksufKeylenx]) ?_ ?_ ?_ ?_
              · simp only [Mem.suf, Mem.set, hp, upd_same, Bag.view, e1, hne, if_false, lstep, if_true, Option.some.injEq, e2]
                exact setBytes_map x _ _
              · intro q hq'
                have : some p = some q := by rw [← hp]; exact hq'
                cases this
                simp only [Mem.set, upd_same]; omega
              · intro q hq' t ht hn
                have : some p = some q := by rw [← hp]; exact hq'
                cases this
                simp only [Mem.set, upd_same] at hn ⊢
                by_cases e : t = s
                · subst e; rw [upd_same, e1] at hn; exact absurd hn hne
                · rw [upd_ne e] at hn ⊢; exact hq.zero p hp t ht hn
              · intro q hq' t v ht hv htv h1 h2
                have : some p = some q := by rw [← hp]; exact hq'
                cases this
                simp only [Mem.set, upd_same] at h1 h2 ⊢
                by_cases e : t = s
                · subst e
                  have e' : v ≠ t := fun h => htv h.symm
                  rw [upd_ne e'] at h2
                  rw [upd_same, upd_same, upd_ne e', upd_ne e']
                  have := hfit v hv h2
                  omega
                · by_cases e' : v = s
                  · subst e'
                    rw [upd_ne e] at h1
                    rw [upd_same, upd_same, upd_ne e, upd_ne e]
                    have := hfit t ht h1
                    omega
                  · simp only [upd_ne e, upd_ne e'] at h1 h2 ⊢
                    exact hq.disj p hp t v ht hv htv h1 h2
        · next hfull =>
          have := good_appended (f := f) (ccap := ccap) (grow := grow) (b := (L.bag p).clone ccap) hs hq hu.symm h24 hx hn hun
            hfit hview (hq.zero p hp) (hq.disj p hp)
          simp only [hp] at this
          exact this


/-- What one access leaves as it was. -/
structure Frame (f : Prop) (u k : Nat) (L L' : Mem) : Prop where
  next : L.next ≤ L'.next
  now : L.now ≤ L'.now
  ptr : ∀ p, p < L.next → L'.ptr = some p → L.ptr = some p
  used : ∀ p, p < L.next → (L.bag p).used ≤ (L'.bag p).used
  len : ∀ p s, p < L.next → (L'.bag p).len s ≤ (L.bag p).len s ∨ (L.ptr = some p ∧ u + (L'.bag p).len s ≤ (L'.bag p).used)
  mono : f → ∀ p s, p < L.next → (L.bag p).len s ≤ (L'.bag p).len s
  slot : ∀ p t, p < L.next → t < 24 → t ≠ k → (L'.bag p).off t = (L.bag p).off t ∧ (L'.bag p).len t = (L.bag p).len t ∧
    ((L.bag p).off t ≠ none32 → ∀ i, i < (L.bag p).len t → (L'.bag p).mem ((L.bag p).off t + i) = (L.bag p).mem ((L.bag p).off t + i))
  ret : ∀ p t, p < L.next → L'.ret p = some t → L.ret p = some t ∨ t = L.now
  keep : ∀ p t, L.ret p = some t → L'.ret p = some t

theorem frame_refl (f : Prop) (u k : Nat) (L : Mem) : Frame f u k L L :=
  ⟨Nat.le_refl _, Nat.le_refl _, fun _ _ h => h, fun _ _ => Nat.le_refl _, fun _ _ _ => .inl (Nat.le_refl _),
    fun _ _ _ _ => Nat.le_refl _, fun _ _ _ _ _ => ⟨rfl, rfl, fun _ _ _ => rfl⟩, fun _ _ _ h => .inl h, fun _ _ h => h⟩

theorem onBag_of {L : Mem} {p : Nat} (h : L.ptr = some p) (f : Bag → Bag) : L.onBag f = L.set p (f (L.bag p)) := by
  simp only [Mem.onBag, Mem.set, h]

/-- A change of the bag in the leaf. -/
theorem frame_set {f : Prop} {u k p : Nat} {L : Mem} {b : Bag} (hp : L.ptr = some p) (hu : (L.bag p).used ≤ b.used)
    (hl : ∀ s, b.len s ≤ (L.bag p).len s ∨ u + b.len s ≤ b.used) (hm : f → ∀ s, (L.bag p).len s ≤ b.len s)
    (hs : ∀ t, t < 24 → t ≠ k → b.off t = (L.bag p).off t ∧ b.len t = (L.bag p).len t ∧
      ((L.bag p).off t ≠ none32 → ∀ i, i < (L.bag p).len t → b.mem ((L.bag p).off t + i) = (L.bag p).mem ((L.bag p).off t + i))) :
    Frame f u k L (L.set p b) := by
  refine ⟨Nat.le_refl _, Nat.le_refl _, fun _ _ h => h, ?_, ?_, ?_, ?_, fun _ _ _ h => .inl h, fun _ _ h => h⟩
  · intro q _
    by_cases e : q = p
    · subst e; simp only [Mem.set, upd_same]; exact hu
    · simp only [Mem.set, upd_ne e]; exact Nat.le_refl _
  · intro q s _
    by_cases e : q = p
    · subst e; simp only [Mem.set, upd_same]
      rcases hl s with h | h
      · exact .inl h
      · exact .inr ⟨hp, h⟩
    · simp only [Mem.set, upd_ne e]; exact .inl (Nat.le_refl _)
  · intro hf q s _
    by_cases e : q = p
    · subst e; simp only [Mem.set, upd_same]; exact hm hf s
    · simp only [Mem.set, upd_ne e]; exact Nat.le_refl _
  · intro q t _ ht hk
    by_cases e : q = p
    · subst e; simp only [Mem.set, upd_same]; exact hs t ht hk
    · have e' : (L.set p b).bag q = L.bag q := upd_ne e
      rw [e']; exact ⟨rfl, rfl, fun _ _ _ => rfl⟩

theorem frame_app {f : Prop} {u k : Nat} {L : Mem} {a : Micro} {ms : List Micro} (hs : Stage u L (a :: ms)) (ha : Away f u k L a) :
    Frame f u k L (a.app L) := by
  cases a with
  | byte i x =>
    obtain ⟨p, hp, hd⟩ := ha
    simp only [Micro.app]; rw [onBag_of hp]
    refine frame_set hp (Nat.le_refl _) (fun _ => .inl (Nat.le_refl _)) (fun _ _ => Nat.le_refl _) fun t ht hk => ⟨rfl, rfl, fun hn j hj => ?_⟩
    have := hd t ht hk hn
    exact upd_ne (by omega)
  | used n =>
    obtain ⟨p, hp, hd⟩ := ha
    simp only [Micro.app]; rw [onBag_of hp]
    refine frame_set hp hd (fun _ => .inl (Nat.le_refl _)) (fun _ _ => Nat.le_refl _) fun t ht hk => ?_
    exact ⟨rfl, rfl, fun _ _ _ => rfl⟩
  | off s o =>
    have ha : s = k := ha
    subst ha
    simp only [Micro.app]
    cases hp : L.ptr with
    | none => simp only [Mem.onBag, hp]; exact frame_refl _ _ _ _
    | some p =>
      rw [onBag_of hp]
      exact frame_set hp (Nat.le_refl _) (fun _ => .inl (Nat.le_refl _)) (fun _ _ => Nat.le_refl _) fun t ht hk => ⟨upd_ne hk, rfl, fun _ _ _ => rfl⟩
  | len s l =>
    obtain ⟨rfl, p, hp, hl, hm⟩ := ha
    simp only [Micro.app]; rw [onBag_of hp]
    refine frame_set hp (Nat.le_refl _) (fun t => ?_) (fun hf t => ?_) fun t ht hk => ⟨rfl, upd_ne hk, fun _ _ _ => rfl⟩
    · by_cases e : t = s
      · subst e; simp only [upd_same]; exact hl
      · simp only [upd_ne e]; exact .inl (Nat.le_refl _)
    · by_cases e : t = s
      · subst e; simp only [upd_same]; exact hm hf
      · simp only [upd_ne e]; exact Nat.le_refl _
  | klx s v =>
    have h := frame_refl f u k L
    exact ⟨h.next, h.now, h.ptr, h.used, h.len, h.mono, h.slot, h.ret, h.keep⟩
  | publish b =>
    have e : ∀ p, p < L.next → (Micro.app (.publish b) L).bag p = L.bag p := fun p hp => upd_ne (by omega)
    refine ⟨by simp only [Micro.app]; omega, Nat.le_refl _, ?_, ?_, ?_, ?_, ?_, fun _ _ _ h => .inl h, fun _ _ h => h⟩
    · intro p hp h
      simp only [Micro.app, Option.some.injEq] at h; omega
    · intro p hp; rw [e p hp]; exact Nat.le_refl _
    · intro p s hp; rw [e p hp]; exact .inl (Nat.le_refl _)
    · intro _ p s hp; rw [e p hp]; exact Nat.le_refl _
    · intro p t hp _ _; rw [e p hp]; exact ⟨rfl, rfl, fun _ _ _ => rfl⟩
  | retire p =>
    obtain ⟨_, _, h3⟩ := ha
    have h := frame_refl f u k L
    refine ⟨h.next, by simp only [Micro.app]; omega, h.ptr, h.used, h.len, h.mono, h.slot, ?_, ?_⟩
    · intro q t _ hq
      simp only [Micro.app] at hq
      by_cases e : q = p
      · subst e; rw [upd_same] at hq; cases hq; exact .inr rfl
      · rw [upd_ne e] at hq; exact .inl hq
    · intro q t hq
      simp only [Micro.app]
      by_cases e : q = p
      · subst e; rw [h3] at hq; cases hq
      · rw [upd_ne e]; exact hq

theorem lrun_snoc (m : LMap) (os : List LOp) (o : LOp) : lrun m (os ++ [o]) = lstep (lrun m os) o := by
  induction os generalizing m with
  | nil => rfl
  | cons a os ih => exact ih _

theorem ltotal_snoc (os : List LOp) (o : LOp) : ltotal (os ++ [o]) = ltotal os + lcost o := by
  simp [ltotal]

/-- Slot a reader reads. -/
def RPc.slot : RPc → Option Nat
  | .idle => none
  | .klx s => some s
  | .ptr s => some s
  | .off1 s _ => some s
  | .len2 s _ _ => some s
  | .len1 s _ => some s
  | .off2 s _ _ => some s
  | .used s _ _ _ => some s
  | .byte s _ _ _ _ => some s
  | .done s _ => some s
  | .panic s => some s

/-- Invariant of all executions. -/
structure Inv (u k : Nat) (s : St) : Prop where
  good : Good (Fresh s.ops) u k (lrun empty s.ops) (ltotal s.ops) s.L s.todo
  tgt : s.todo ≠ [] → s.target = some k
  now : ∀ i t, s.guard i = some t → t ≤ s.L.now
  freed : ∀ p, s.freed p = true → ∃ t, s.L.ret p = some t ∧ ∀ i x, s.guard i = some x → t < x
  held : ∀ i p, (s.rd i).bag = some p → p < s.L.next ∧ ∃ t, s.guard i = some t ∧ ∀ x, s.L.ret p = some x → t ≤ x
  slot : ∀ i x, (s.rd i).slot = some x → x < 24
  pinned : ∀ i, s.rd i ≠ .idle → s.guard i ≠ none

/-- Where a reader stands. -/
def SafePc (b : Bool) (u : Nat) (L : Mem) : RPc → Prop
  | .len2 s p o => o ≠ none32 → o + (L.bag p).len s ≤ (L.bag p).used ∧ (L.ptr = some p → o ≤ u)
  | .used _ p o l => o + l ≤ (L.bag p).used
  | .byte _ p o l _ => o + l ≤ (L.bag p).used
  | .len1 _ _ => b = true
  | .off2 s p l => b = true ∧ l ≤ (L.bag p).len s
  | .panic _ => False
  | _ => True

theorem SafePc.frame {f : Prop} {b : Bool} {u k : Nat} {L L' : Mem} (h : Frame f u k L L') (hb : b = true → f) {c : RPc}
    (hp : ∀ p, c.bag = some p → p < L.next) (hc : SafePc b u L c) : SafePc b u L' c := by
  cases c with
  | len2 s p o =>
    intro hn
    have hp := hp p rfl
    obtain ⟨h1, h2⟩ := hc hn
    have hu := h.used p hp
    refine ⟨?_, fun h' => h2 (h.ptr p hp h')⟩
    rcases h.len p s hp with hl | ⟨hl, hl'⟩
    · omega
    · have := h2 hl
      omega
  | used s p o l =>
    have := h.used p (hp p rfl)
    have hc : o + l ≤ _ := hc
    show o + l ≤ _
    omega
  | byte s p o l acc =>
    have := h.used p (hp p rfl)
    have hc : o + l ≤ _ := hc
    show o + l ≤ _
    omega
  | off2 s p l => exact ⟨hc.1, Nat.le_trans hc.2 (h.mono (hb hc.1) p s (hp p rfl))⟩
  | _ => exact hc

theorem SafePc.restart {b : Bool} {u : Nat} {L : Mem} {c : RPc} (hc : SafePc b u L c) : SafePc b L.used0 L c := by
  cases c with
  | len2 s p o =>
    intro hn
    obtain ⟨h1, h2⟩ := hc hn
    refine ⟨h1, fun h => ?_⟩
    simp only [Mem.used0, h]
    omega
  | _ => exact hc

theorem SafePc.read {b : Bool} {u : Nat} {L : Mem} {ms : List Micro} (hs : Stage u L ms) {c : RPc} (hp : ∀ p, c.bag = some p → p < L.next)
    (hx : ∀ x, c.slot = some x → x < 24) (hc : SafePc b u L c) : SafePc b u L (rstep b L c) := by
  cases c with
  | idle => trivial
  | klx s => simp only [rstep]; split <;> trivial
  | ptr s =>
    simp only [rstep]
    split
    · trivial
    · cases b <;> simp [SafePc]
  | off1 s p =>
    intro hn
    exact ⟨hs.bag p (hp p rfl) s (hx s rfl) hn, fun h => (hs.cur p h).2 s (hx s rfl) hn⟩
  | len2 s p o =>
    simp only [rstep]
    split
    · trivial
    · next h => exact (hc h).1
  | len1 s p => exact ⟨hc, Nat.le_refl _⟩
  | off2 s p l =>
    simp only [rstep]
    split
    · trivial
    · next h =>
      have := hs.bag p (hp p rfl) s (hx s rfl) h
      have := hc.2
      show _ + l ≤ _
      omega
  | used s p o l =>
    have hc : o + l ≤ _ := hc
    simp only [rstep, if_pos hc]; exact hc
  | byte s p o l acc =>
    simp only [rstep]
    split
    · exact hc
    · trivial
  | done s r => trivial
  | panic s => exact hc.elim

theorem rstep_bag {b : Bool} {L : Mem} {c : RPc} {p : Nat} (h : (rstep b L c).bag = some p) : c.bag = some p ∨ L.ptr = some p := by
  cases c with
  | ptr s =>
    simp only [rstep] at h
    split at h
    · simp [RPc.bag] at h
    · next q hq =>
      right
      split at h <;> (simp only [RPc.bag, Option.some.injEq] at h; rw [hq, h])
  | _ =>
    left
    simp only [rstep] at h
    first
      | exact h
      | (split at h <;> first | exact h | simp [RPc.bag] at h)

theorem rstep_slot {b : Bool} {L : Mem} {c : RPc} : (rstep b L c).slot = c.slot := by
  cases c <;> simp only [rstep] <;> repeat (first | rfl | split)

theorem inv_init : Inv 0 0 St.init := by
  refine ⟨⟨⟨⟨?_, ?_, ?_⟩, ?_, ?_⟩, ⟨?_, ?_, ?_, ?_, ?_⟩⟩, ?_, ?_, ?_, ?_, ?_, ?_⟩ <;>
    simp [St.init, empty, lrun, Mem.suf, RPc.bag, RPc.slot]

theorem Inv.fresh {u k : Nat} {s : St} (h : Inv u k s) {i p : Nat} (hp : s.L.ptr = some p) : p < s.L.next ∧
    (s.guard i ≠ none → ∃ t, s.guard i = some t ∧ ∀ x, s.L.ret p = some x → t ≤ x) := by
  have := h.good.stage.life.cur p hp
  refine ⟨this.1, fun hg => ?_⟩
  obtain ⟨t, ht⟩ := Option.ne_none_iff_exists'.mp hg
  exact ⟨t, ht, fun x hx => by rw [this.2] at hx; cases hx⟩

theorem step_inv {b : Bool} {s s' : St} {u k : Nat} (h : Step b s s') (hi : Inv u k s) (hn : ltotal s'.ops < none32) :
    ∃ u' k', Inv u' k' s' ∧ ((b = true → Fresh s'.ops) → (∀ i, SafePc b u s.L (s.rd i)) → ∀ i, SafePc b u' s'.L (s'.rd i)) := by
  cases h with
  | call o swap h hl hc =>
    obtain ⟨k', hk'⟩ := Option.ne_none_iff_exists'.mp hc
    have hg := hi.good
    rw [h] at hg
    simp only [ltotal_snoc] at hn
    refine ⟨s.L.used0, k', ⟨?_, ?_, hi.now, hi.freed, hi.held, hi.slot, hi.pinned⟩, fun _ hs i => (hs i).restart⟩
    · simp only [lrun_snoc, ltotal_snoc]
      exact plan_good swap hg.1 hg.2 hl hk' hn fun hf s x c g e => hf _ s x c g [] (by rw [e])
    · intro _; simp [St.target, hk']
  | write m ms h =>
    have hg := hi.good
    rw [h] at hg
    obtain ⟨h1, h2, h3, h4⟩ := hg
    have hf := frame_app h1 h3
    refine ⟨u, k, ⟨h4, fun _ => hi.tgt (by rw [h]; simp), ?_, ?_, ?_, hi.slot, hi.pinned⟩, fun hb hs i => ?_⟩
    · intro i t ht
      exact Nat.le_trans (hi.now i t ht) hf.now
    · intro p hp
      obtain ⟨t, h1, h2⟩ := hi.freed p hp
      exact ⟨t, hf.keep p t h1, h2⟩
    · intro i p hp
      obtain ⟨h1, t, h2, h3⟩ := hi.held i p hp
      refine ⟨Nat.lt_of_lt_of_le h1 hf.next, t, h2, fun x hx => ?_⟩
      rcases hf.ret p x h1 hx with h | h
      · exact h3 x h
      · subst h; exact hi.now i t h2
    · exact (hs i).frame hf hb fun p hp => (hi.held i p hp).1
  | enter i h hr =>
    refine ⟨u, k, ⟨hi.good, hi.tgt, ?_, ?_, ?_, hi.slot, ?_⟩, fun _ hs => hs⟩
    · intro j t ht
      simp only at ht
      by_cases e : j = i
      · subst e; rw [upd_same] at ht; cases ht; exact Nat.le_refl _
      · rw [upd_ne e] at ht; exact hi.now j t ht
    · intro p hp
      obtain ⟨t, h1, h2⟩ := hi.freed p hp
      refine ⟨t, h1, fun j x hx => ?_⟩
      simp only at hx
      by_cases e : j = i
      · subst e; rw [upd_same] at hx; cases hx
        exact (hi.good.stage.life.ret p t h1).2
      · rw [upd_ne e] at hx; exact h2 j x hx
    · intro j p hp
      have e : j ≠ i := by
        intro e; subst e
        simp only [hr, RPc.bag] at hp; cases hp
      simp only [upd_ne e]
      exact hi.held j p hp
    · intro j hj
      simp only
      by_cases e : j = i
      · subst e; rw [upd_same]; simp
      · rw [upd_ne e]; exact hi.pinned j hj
  | start i x h hx hr =>
    refine ⟨u, k, ⟨hi.good, hi.tgt, hi.now, hi.freed, ?_, ?_, ?_⟩, fun _ hs j => ?_⟩
    · intro j p hp
      by_cases e : j = i
      · subst e; simp [upd_same, RPc.bag] at hp
      · simp only [upd_ne e] at hp; exact hi.held j p hp
    · intro j y hy
      by_cases e : j = i
      · subst e
        simp only [upd_same, RPc.slot, Option.some.injEq] at hy; omega
      · simp only [upd_ne e] at hy; exact hi.slot j y hy
    · intro j hj
      by_cases e : j = i
      · subst e; exact h
      · simp only [upd_ne e] at hj; exact hi.pinned j hj
    · by_cases e : j = i
      · subst e; simp only [upd_same]; trivial
      · simp only [upd_ne e]; exact hs j
  | read i =>
    have hbag : ∀ p, (s.rd i).bag = some p → p < s.L.next := fun p hp => (hi.held i p hp).1
    refine ⟨u, k, ⟨hi.good, hi.tgt, hi.now, hi.freed, ?_, ?_, ?_⟩, fun hb hs j => ?_⟩
    · intro j p hp
      by_cases e : j = i
      · subst e; simp only [upd_same] at hp
        rcases rstep_bag hp with h | h
        · exact hi.held j p h
        · have := hi.fresh (i := j) h
          refine ⟨this.1, this.2 (hi.pinned j fun h' => ?_)⟩
          rw [h'] at hp; simp [rstep, RPc.bag] at hp
      · simp only [upd_ne e] at hp; exact hi.held j p hp
    · intro j y hy
      by_cases e : j = i
      · subst e
        simp only [upd_same, rstep_slot] at hy; exact hi.slot j y hy
      · simp only [upd_ne e] at hy; exact hi.slot j y hy
    · intro j hj
      by_cases e : j = i
      · subst e
        simp only [upd_same] at hj
        exact hi.pinned j fun h' => hj (by rw [h']; rfl)
      · simp only [upd_ne e] at hj; exact hi.pinned j hj
    · by_cases e : j = i
      · subst e; simp only [upd_same]; exact (hs j).read hi.good.stage hbag (hi.slot j)
      · simp only [upd_ne e]; exact hs j
  | leave i hr =>
    refine ⟨u, k, ⟨hi.good, hi.tgt, ?_, ?_, ?_, ?_, ?_⟩, fun _ hs j => ?_⟩
    · intro j t ht
      simp only at ht
      by_cases e : j = i
      · subst e; rw [upd_same] at ht; cases ht
      · rw [upd_ne e] at ht; exact hi.now j t ht
    · intro p hp
      obtain ⟨t, h1, h2⟩ := hi.freed p hp
      refine ⟨t, h1, fun j x hx => ?_⟩
      simp only at hx
      by_cases e : j = i
      · subst e; rw [upd_same] at hx; cases hx
      · rw [upd_ne e] at hx; exact h2 j x hx
    · intro j p hp
      by_cases e : j = i
      · subst e; simp [upd_same, RPc.bag] at hp
      · simp only [upd_ne e] at hp ⊢; exact hi.held j p hp
    · intro j y hy
      by_cases e : j = i
      · subst e
        simp [upd_same, RPc.slot] at hy
      · simp only [upd_ne e] at hy; exact hi.slot j y hy
    · intro j hj
      by_cases e : j = i
      · subst e; simp [upd_same] at hj
      · simp only [upd_ne e] at hj ⊢; exact hi.pinned j hj
    · by_cases e : j = i
      · subst e; simp only [upd_same]; trivial
      · simp only [upd_ne e]; exact hs j
  | free p t h hf hg =>
    refine ⟨u, k, ⟨hi.good, hi.tgt, hi.now, ?_, hi.held, hi.slot, hi.pinned⟩, fun _ hs => hs⟩
    intro q hq
    simp only at hq
    by_cases e : q = p
    · subst e; exact ⟨t, h, hg⟩
    · rw [upd_ne e] at hq; exact hi.freed q hq

theorem Inv.settled {u k : Nat} {s : St} (h : Inv u k s) {x : Nat} (hx : x < 24) (hs : s.Settled x) :
    s.L.klx x = (lrun empty s.ops).klx x ∧ s.L.suf x = (lrun empty s.ops).suf x := by
  by_cases e : s.todo = []
  · have hg := h.good
    rw [e] at hg
    exact ⟨hg.2.klx x hx, hg.2.suf x hx⟩
  · refine h.good.match x hx fun e' => hs e ?_
    rw [e']; exact h.tgt e

/-- What a reader has in hand is what slot `x` holds. -/
def Exact (m : LMap) (L : Mem) (x : Nat) : RPc → Prop
  | .idle => False
  | .klx s => s = x
  | .ptr s => s = x ∧ m.klx x = 64
  | .off1 s p => s = x ∧ m.klx x = 64 ∧ (L.bag p).view x = m.suf x
  | .len2 s p o => s = x ∧ m.klx x = 64 ∧ (L.bag p).view x = m.suf x ∧ o = (L.bag p).off x
  | .len1 s p => s = x ∧ m.klx x = 64 ∧ (L.bag p).view x = m.suf x
  | .off2 s p l => s = x ∧ m.klx x = 64 ∧ (L.bag p).view x = m.suf x ∧ l = (L.bag p).len x
  | .used s p o l => s = x ∧ m.klx x = 64 ∧ (L.bag p).view x = m.suf x ∧ o = (L.bag p).off x ∧ l = (L.bag p).len x ∧ o ≠ none32
  | .byte s p o l acc => s = x ∧ m.klx x = 64 ∧ (L.bag p).view x = m.suf x ∧ o = (L.bag p).off x ∧ l = (L.bag p).len x ∧ o ≠ none32 ∧
      acc.length ≤ l ∧ acc = (List.range acc.length).map fun i => (L.bag p).mem (o + i)
  | .done s r => s = x ∧ r = m.read x
  | .panic _ => False

theorem Exact.frame {f : Prop} {u k x : Nat} {m m' : LMap} {L L' : Mem} (h : Frame f u k L L') (hk : x ≠ k) (hx : x < 24)
    (hm : m'.klx x = m.klx x ∧ m'.suf x = m.suf x) {c : RPc} (hp : ∀ p, c.bag = some p → p < L.next) (hc : Exact m L x c) :
    Exact m' L' x c := by
  have key : ∀ p, c.bag = some p → (L'.bag p).view x = (L.bag p).view x := fun p h' =>
    view_congr (h.slot p x (hp p h') hx hk).1 (h.slot p x (hp p h') hx hk).2.1 (h.slot p x (hp p h') hx hk).2.2
  cases c with
  | idle => exact hc
  | klx s => exact hc
  | ptr s => simp only [Exact, hm.1] at hc ⊢; exact hc
  | off1 s p => simp only [Exact, hm.1, hm.2, key p rfl] at hc ⊢; exact hc
  | len1 s p => simp only [Exact, hm.1, hm.2, key p rfl] at hc ⊢; exact hc
  | len2 s p o => simp only [Exact, hm.1, hm.2, key p rfl, (h.slot p x (hp p rfl) hx hk).1] at hc ⊢; exact hc
  | off2 s p l => simp only [Exact, hm.1, hm.2, key p rfl, (h.slot p x (hp p rfl) hx hk).2.1] at hc ⊢; exact hc
  | used s p o l =>
    simp only [Exact, hm.1, hm.2, key p rfl, (h.slot p x (hp p rfl) hx hk).1, (h.slot p x (hp p rfl) hx hk).2.1] at hc ⊢; exact hc
  | byte s p o l acc =>
    simp only [Exact, hm.1, hm.2, key p rfl, (h.slot p x (hp p rfl) hx hk).1, (h.slot p x (hp p rfl) hx hk).2.1] at hc ⊢
    obtain ⟨h1, h2, h3, h4, h5, h6, h7, h8⟩ := hc
    refine ⟨h1, h2, h3, h4, h5, h6, h7, h8.trans ?_⟩
    apply List.map_congr_left
    intro i hi
    have hi := List.mem_range.mp hi
    subst h4; subst h5
    exact ((h.slot p x (hp p rfl) hx hk).2.2 h6 i (by omega)).symm
  | done s r => simp only [Exact, LMap.read, hm.1, hm.2] at hc ⊢; exact hc
  | panic s => exact hc

theorem Exact.read {u : Nat} {L : Mem} {ms : List Micro} (hs : Stage u L ms) {m : LMap} {b : Bool} {x : Nat} {c : RPc} (hx : x < 24)
    (hm : L.klx x = m.klx x ∧ L.suf x = m.suf x) (hp : ∀ p, c.bag = some p → p < L.next) (hc : Exact m L x c) :
    Exact m L x (rstep b L c) := by
  cases c with
  | idle => exact hc
  | klx s =>
    have hc : s = x := hc
    subst hc
    simp only [rstep]
    split
    · next h => exact ⟨rfl, by rw [← hm.1]; exact h⟩
    · next h =>
      refine ⟨rfl, ?_⟩
      rw [hm.1] at h
      exact (if_neg h).symm
  | ptr s =>
    obtain ⟨rfl, h2⟩ := hc
    simp only [rstep]
    split
    · next h =>
      refine ⟨rfl, ?_⟩
      have := hm.2
      simp only [Mem.suf, h] at this
      simp only [LMap.read, h2, if_true]; exact this
    · next p h =>
      have := hm.2
      simp only [Mem.suf, h] at this
      cases b <;> exact ⟨rfl, h2, this⟩
  | off1 s p =>
    obtain ⟨rfl, h2, h3⟩ := hc
    exact ⟨rfl, h2, h3, rfl⟩
  | len1 s p =>
    obtain ⟨rfl, h2, h3⟩ := hc
    exact ⟨rfl, h2, h3, rfl⟩
  | len2 s p o =>
    obtain ⟨rfl, h2, h3, h4⟩ := hc
    simp only [rstep]
    split
    · next h =>
      refine ⟨rfl, ?_⟩
      simp only [LMap.read, h2, if_true, ← h3, Bag.view]
      rw [← h4, if_pos h]
    · next h => exact ⟨rfl, h2, h3, h4, rfl, h⟩
  | off2 s p l =>
    obtain ⟨rfl, h2, h3, h4⟩ := hc
    simp only [rstep]
    split
    · next h =>
      refine ⟨rfl, ?_⟩
      simp only [LMap.read, h2, if_true, ← h3, Bag.view]
      rw [if_pos h]
    · next h => exact ⟨rfl, h2, h3, rfl, h4, h⟩
  | used s p o l =>
    obtain ⟨rfl, h2, h3, h4, h5, h6⟩ := hc
    have := hs.bag p (hp p rfl) s hx (by rw [← h4]; exact h6)
    rw [← h4, ← h5] at this
    simp only [rstep, if_pos this]
    exact ⟨rfl, h2, h3, h4, h5, h6, Nat.zero_le _, rfl⟩
  | byte s p o l acc =>
    obtain ⟨rfl, h2, h3, h4, h5, h6, h7, h8⟩ := hc
    simp only [rstep]
    split
    · next h =>
      refine ⟨rfl, h2, h3, h4, h5, h6, by simp only [List.length_append, List.length_cons, List.length_nil]; omega, ?_⟩
      simp only [List.length_append, List.length_cons, List.length_nil, Nat.zero_add, List.range_succ, List.map_append, List.map_cons,
        List.map_nil]
      rw [← h8]
    · next h =>
      refine ⟨rfl, ?_⟩
      have e : acc.length = l := by omega
      simp only [LMap.read, h2, if_true, ← h3, Bag.view]
      rw [← h4, if_neg h6, ← h5, ← e, ← h8]
  | done s r => exact hc
  | panic s => exact hc

theorem plan_ne {L : Mem} {swap : Bool} {o : LOp} {k : Nat} (h : slotOf o = some k) : plan L swap o ≠ [] := by
  cases o with
  | compact => simp [slotOf] at h
  | setKlx s v => simp [plan]
  | clear s c => simp only [plan]; split <;> simp
  | assign s y c g => simp only [plan]; (repeat' split) <;> simp

theorem exact_step {b : Bool} {s s' : St} {u k : Nat} (h : Step b s s') (hi : Inv u k s) {x : Nat} (hx : x < 24) (hs : s.Settled x)
    (hs' : s'.Settled x) {i : Nat} (hr : ∀ r, s.rd i ≠ .done x r) (he : Exact (lrun empty s.ops) s.L x (s.rd i)) :
    Exact (lrun empty s'.ops) s'.L x (s'.rd i) := by
  have hbag : ∀ p, (s.rd i).bag = some p → p < s.L.next := fun p hp => (hi.held i p hp).1
  have hd : ¬ (s.rd i = .idle ∨ ∃ y r, s.rd i = .done y r) := by
    rintro (h | ⟨y, r, h⟩)
    · rw [h] at he; exact he
    · rw [h] at he
      have := he.1; subst this
      exact hr r h
  cases h with
  | call o swap h hl hc =>
    obtain ⟨k', hk'⟩ := Option.ne_none_iff_exists'.mp hc
    have hne : plan s.L swap o ≠ [] := plan_ne hk'
    have hk : x ≠ k' := by
      intro e
      exact hs' hne (by simp [St.target, hk', e])
    simp only [lrun_snoc]
    exact he.frame (frame_refl True 0 k' s.L) hk hx (lstep_other hk' hk) hbag
  | write m ms h =>
    have hg := hi.good
    rw [h] at hg
    obtain ⟨h1, h2, h3, h4⟩ := hg
    have ht := hi.tgt (by rw [h]; simp)
    have hk : x ≠ k := by
      intro e
      exact hs (by rw [h]; simp) (by rw [ht, e])
    exact he.frame (frame_app h1 h3) hk hx ⟨rfl, rfl⟩ hbag
  | enter j h hr => exact he
  | start j y h hx' hr' =>
    by_cases e : i = j
    · subst e; exact (hd hr').elim
    · simp only [upd_ne e]; exact he
  | read j =>
    by_cases e : i = j
    · subst e
      simp only [upd_same]
      exact he.read hi.good.stage hx (hi.settled hx hs) hbag
    · simp only [upd_ne e]; exact he
  | leave j hr' =>
    by_cases e : i = j
    · subst e; exact (hd hr').elim
    · simp only [upd_ne e]; exact he
  | free p t h hf hg => exact he

end Verif.BagRace
