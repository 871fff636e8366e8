import Verif.Proof.IndexLimit
set_option linter.unusedSimpArgs false
set_option linter.unusedVariables false
/-! A schedule that uses up the rounds of a split, part 2: splits of thread 1. -/
namespace Verif.Index
open Verif.Internode
variable {V : Type} {p0 : Pc V} {c : Ctx V} {h : Heap V}

theorem Hush.ne0 {L : List Nat} {y n : Nat} (C : Hush h c L y) (hn : Al h n) : n ≠ 0 := by have := hn.1; omega

theorem Rd.hush_par {c1 : Ctx V} (R : Rd (two p0 h (.par c1))) (S : Still p0 c) :
    Hush h c [c1.l, c1.y] c1.y ∧ CtxOk true h c1 ∧ (c1.l ≠ c.l ∧ c1.l ≠ c.y) := by
  obtain ⟨I, _⟩ := R.inv2 S (by simp)
  have k : CtxOk true h c1 := I.ok 1
  have ky := k.ay.1
  refine ⟨R.hush S (by simp) (fun n => ?_) (fun n => id), k, ?_⟩
  · have : right (Pc.par c1) n ↔ n = c1.y := Iff.rfl
    rw [this]; exact ⟨fun e => ⟨e, by omega⟩, fun e => e.1⟩
  · have e := I.excl 0 1 c1.l
    have q : Index.holds ((two p0 h (.par c1)).pc 0) = [c.l, c.y] := S.holds
    rw [q] at e
    have q : Index.holds ((two p0 h (.par c1)).pc 1) = [c1.l, c1.y] := rfl
    rw [q] at e
    constructor <;> intro w <;> have := e (by simp [w]) (by simp) <;> omega

/-- The parent of a node. -/
theorem HInv.parent {O B : Nat → Prop} {x q : Nat} (H : HInv true h O B) (hx : Al h x) (hp : (h.node x).parent = q) (hq : q ≠ 0) :
    Al h q ∧ (h.node q).ht = (h.node x).ht + 1 := by
  obtain ⟨a, b, i, i1, i2⟩ := H.par x hx (by rw [hp]; exact hq)
  rw [hp] at a b i1 i2
  have := (H.kid q a b i i1).2.2
  rw [i2] at this
  exact ⟨a, this.symm⟩

/-- Thread 1 locks the parent. -/
theorem Rd.enter {c1 : Ctx V} {q : Nat} (R : Rd (two p0 h (.par c1))) (S : Still p0 c) (h0 : (h.node c.l).ht = 0)
    (hp : (h.node c1.l).parent = q) (hq : q ≠ 0) (hr : c1.rounds < 64) :
    Rd (two p0 (h.mod q Node.lock) (.rechk { c1 with rounds := c1.rounds + 1 } q)) := by
  obtain ⟨C, k, _⟩ := R.hush_par S
  obtain ⟨hq1, hq2⟩ := C.H.parent k.al hp hq
  have hu := C.unl1 h0 hq1 (by omega) (by
    simp only [List.mem_cons, List.not_mem_nil, or_false]
    rintro (e | e)
    · rw [e] at hq2; omega
    · rw [e, k.ht] at hq2; omega)
  have R1 : Rd (two p0 h (.lck { c1 with rounds := c1.rounds + 1 } q)) := R.to (by
    simp only [step]
    rw [if_neg (by unfold maxRounds; omega), hp, if_neg hq])
  refine R1.to ?_
  simp [step, hu]

theorem findChild_eq {a : Arr Nat} {x idx n : Nat} (hi : idx ≤ n) (hx : a.child idx = x)
    (inj : ∀ i j, i ≤ n → j ≤ n → a.child i = a.child j → i = j) : findChild a x 0 (n + 1) = some idx := by
  cases e : findChild a x 0 (n + 1) with
  | none => exact absurd hx (findChild_none e idx (by omega) (by omega))
  | some j =>
    obtain ⟨_, j2, j3⟩ := findChild_some e
    rw [inj j idx (by omega) hi (by rw [j3, hx])]

theorem mod_mod (h : Heap V) (q : Nat) (f g : Node V → Node V) : (h.mod q f).mod q g = h.mod q (fun n => g (f n)) := by
  have : ((h.mod q f).mod q g).node = (h.mod q (fun n => g (f n))).node := by
    funext m; simp only [mod_node]; split <;> simp
  simp only [Heap.mod] at this ⊢
  rw [this]

theorem Rd.stores {c2 : Ctx V} {q : Nat} : ∀ (todo : List Store) (h : Heap V), Rd (two p0 h (.ins c2 q todo)) →
    Rd (two p0 (h.mod q (fun n => { n with arr := todo.foldl Store.apply n.arr })) (.ins c2 q []))
  | [], h, R => by
    have : h.mod q (fun n => { n with arr := [].foldl Store.apply n.arr }) = h := by
      have : (h.mod q (fun n => { n with arr := [].foldl Store.apply n.arr })).node = h.node := by
        funext m; simp only [mod_node]; split
        · rename_i e; rw [e]; rfl
        · rfl
      simp only [Heap.mod] at this ⊢; rw [this]
    rw [this]; exact R
  | st :: todo, h, R => by
    have := Rd.stores todo _ (R.to (c' := .ins c2 q todo) (h' := h.mod q (fun n => { n with arr := st.apply n.arr })) rfl)
    rw [mod_mod] at this
    exact this

/-- The parent has room. -/
theorem Rd.fits {c1 : Ctx V} {q idx : Nat} (R : Rd (two p0 h (.par c1))) (S : Still p0 c) (h0 : (h.node c.l).ht = 0)
    (hp : (h.node c1.l).parent = q) (hq : q ≠ 0) (hr : c1.rounds < 64) (hn : (h.node q).arr.nkeys < 15) (hi : idx ≤ (h.node q).arr.nkeys)
    (hc : (h.node q).arr.child idx = c1.l) :
    ∃ h', Rd (two p0 h' (.climb c1.o c1.r)) ∧ h'.fresh = h.fresh ∧ h'.root = h.root ∧
      ∀ m, (h'.node m).ht = (h.node m).ht ∧ (h'.node m).lo = (h.node m).lo ∧ (h'.node m).ents = (h.node m).ents ∧
        (h'.node m).next = (h.node m).next ∧
        (h'.node m).arr = (if m = q then insertKeyAndChild (h.node q).arr idx c1.sep c1.y else (h.node m).arr) ∧
        (h'.node m).parent = if m = c1.y then q else (h.node m).parent := by
  obtain ⟨C, k, _⟩ := R.hush_par S
  obtain ⟨hq1, hq2⟩ := C.H.parent k.al hp hq
  have inj := C.H.inj q hq1 (by omega)
  rw [← C.arr hq1] at inj
  have hlq : c1.l ≠ q := by intro e; rw [← e] at hq2; omega
  have hyq : c1.y ≠ q := by intro e; rw [← e, k.ht] at hq2; omega
  have R1 := R.enter S h0 hp hq hr
  have R2 : Rd (two p0 (h.mod q Node.lock) (.ins { c1 with rounds := c1.rounds + 1, stale := 0 } q (insertStores (h.node q).arr idx c1.sep c1.y))) := by
    refine R1.to ?_
    simp only [step]
    have e1 : ((h.mod q Node.lock).node c1.l).parent = q := by simp only [mod_node]; rw [if_neg hlq]; exact hp
    have e2 : ((h.mod q Node.lock).node q).arr = (h.node q).arr := by simp only [mod_node, if_true]; rfl
    rw [if_neg (by simp [e1]), e2, findChild_eq hi hc inj]
    simp only
    rw [if_pos (by unfold inodeWidth; omega)]
  have R3 := Rd.stores _ _ R2
  have R4 := R3.to rfl
  refine ⟨_, R4, rfl, rfl, fun m => ?_⟩
  simp only [mod_node, if_neg hyq, if_neg hlq, if_neg hlq.symm, if_neg hyq.symm, if_neg k.ne, if_neg k.ne.symm, Node.lock, if_true]
  by_cases e1 : m = c1.l
  · subst e1; simp [hlq, k.ne]
  · by_cases e2 : m = q
    · subst e2; simp [e1, hyq, hyq.symm, insertStores_fold _ _ _ _ hi]
    · by_cases e3 : m = c1.y
      · subst e3; simp [e1, e2]
      · simp [e1, e2, e3]

open Classical in
/-- The parent is full. -/
theorem Rd.splits {c1 : Ctx V} {q idx : Nat} (R : Rd (two p0 h (.par c1))) (S : Still p0 c) (h0 : (h.node c.l).ht = 0)
    (hp : (h.node c1.l).parent = q) (hq : q ≠ 0) (hr : c1.rounds < 64) (hn : (h.node q).arr.nkeys = 15) (hi : idx ≤ 15)
    (hc : (h.node q).arr.child idx = c1.l) :
    let x := splitInto inodeWidth (h.node q).arr emptyArr idx c1.sep c1.y
    ∃ h' a b, Rd (two p0 h' (.par ⟨c1.o, c1.r, q, h.fresh, x.2.2.1, a, b, c1.rounds + 1, 0⟩)) ∧ h'.fresh = h.fresh + 1 ∧ h'.root = h.root ∧
      (∀ m, m ≠ h.fresh → (h'.node m).ht = (h.node m).ht ∧ (h'.node m).lo = (h.node m).lo ∧ (h'.node m).ents = (h.node m).ents ∧
        (h'.node m).next = (h.node m).next ∧
        (h'.node m).arr = (if m = q then x.1 else (h.node m).arr) ∧
        (h'.node m).parent = if ∃ i, i ≤ x.2.1.nkeys ∧ x.2.1.child i = m then h.fresh else if m = c1.y then q else (h.node m).parent) ∧
      (h'.node h.fresh).ht = (h.node q).ht ∧ (h'.node h.fresh).arr = x.2.1 := by
  intro x
  obtain ⟨C, k, kl⟩ := R.hush_par S
  obtain ⟨hq1, hq2⟩ := C.H.parent k.al hp hq
  have inj := C.H.inj q hq1 (by omega)
  rw [← C.arr hq1] at inj
  have hlq : c1.l ≠ q := by intro e; rw [← e] at hq2; omega
  have hyq : c1.y ≠ q := by intro e; rw [← e, k.ht] at hq2; omega
  have R1 := R.enter S h0 hp hq hr
  obtain ⟨I1, _⟩ := R1.inv2 S (by simp)
  let s := h.mod q Node.lock
  have eq : s.node q = (h.node q).lock := by simp [s, mod_node]
  have ene : ∀ m, m ≠ q → s.node m = h.node m := fun m hm => by simp [s, mod_node, hm]
  have eht : ∀ m, (s.node m).ht = (h.node m).ht := fun m => by by_cases e : m = q <;> simp [s, mod_node, e, Node.lock]
  have earr : ∀ m, (s.node m).arr = (h.node m).arr := fun m => by by_cases e : m = q <;> simp [s, mod_node, e, Node.lock]
  have ebase : ∀ m, (s.node m).base = (h.node m).base := fun m => by by_cases e : m = q <;> simp [s, mod_node, e, Node.lock]
  have k2 : CtxOk true s { c1 with rounds := c1.rounds + 1 } := (I1.ok 1).1
  have sp := splitInode_spec (s := s) (c := { c1 with rounds := c1.rounds + 1 }) (p := q) (idx := idx) I1.H k2 hq1
    (by rw [eht, eht]; exact hq2) (by rw [eq]; rfl) (by rw [earr]; exact hn) hi (by rw [earr, ebase]; exact C.arr hq1)
    (by rw [earr]; exact hc) (by rw [earr, ebase]; exact C.arr k.al) (by rw [earr, ebase]; exact C.arr k.ay)
  simp only at sp
  rw [earr q] at sp
  obtain ⟨s1, s2, s3, s4, s5⟩ := sp
  have e1 : (s.node c1.l).parent = q := by rw [ene _ hlq]; exact hp
  refine ⟨(splitInode s { c1 with rounds := c1.rounds + 1 } q idx).1, true && s.root == q,
    !(true && s.root == q) && (s.node q).parent == 0 && (s.node q).rootf, R1.to ?_, s1, s2, ?_, ?_⟩
  · simp only [step]
    have e2 : ((h.mod q Node.lock).node q).arr = (h.node q).arr := earr q
    have e3 : (h.mod q Node.lock).fresh = h.fresh := rfl
    have e1' : ((h.mod q Node.lock).node c1.l).parent = q := e1
    rw [if_neg (by simp [e1']), e2, hn, findChild_eq hi hc (by rw [← hn]; exact inj)]
    simp only
    rw [if_neg (by unfold inodeWidth; omega)]
    have e4 : (splitInode s { c1 with rounds := c1.rounds + 1 } q idx).2 = x.2.2.1 := by simp only [splitInode, earr]; rfl
    rw [← e4]
    rfl
  · intro m hm
    obtain ⟨t1, t2, t3, t4, t5, t6, t7, _⟩ := s4 m hm
    refine ⟨by rw [t1, eht], ?_, ?_, ?_, ?_, ?_⟩
    · rw [t2]; by_cases e : m = q <;> simp [s, mod_node, e, Node.lock]
    · rw [t6]; by_cases e : m = q <;> simp [s, mod_node, e, Node.lock]
    · rw [t5]; by_cases e : m = q <;> simp [s, mod_node, e, Node.lock]
    · rw [t4, earr]
    · rw [t7]
      have : (s.node m).parent = (h.node m).parent := by by_cases e : m = q <;> simp [s, mod_node, e, Node.lock]
      rw [this]; rfl
  · exact ⟨by have := s5.1; rw [eht] at this; exact this, s5.2.2.2.1⟩

/-- The root has been split. -/
theorem Rd.grows {c1 : Ctx V} (R : Rd (two p0 h (.par c1))) (S : Still p0 c) (hp : (h.node c1.l).parent = 0) (hr : c1.rounds < 64) :
    ∃ h', Rd (two p0 h' (.climb c1.o c1.r)) ∧ h'.fresh = h.fresh + 1 ∧ h'.root = h.fresh ∧
      (∀ m, m ≠ h.fresh → (h'.node m).ht = (h.node m).ht ∧ (h'.node m).lo = (h.node m).lo ∧ (h'.node m).ents = (h.node m).ents ∧
        (h'.node m).next = (h.node m).next ∧ (h'.node m).arr = (h.node m).arr ∧
        (h'.node m).parent = if m = c1.l ∨ m = c1.y then h.fresh else (h.node m).parent) ∧
      (h'.node h.fresh).ht = (h.node c1.l).ht + 1 ∧ (h'.node h.fresh).parent = 0 ∧ (h'.node h.fresh).arr = rootArr c1.l c1.y c1.sep := by
  obtain ⟨C, k, kl⟩ := R.hush_par S
  have hlt : c1.l = h.top := by
    rcases C.H.orph _ k.al hp with q | q | q
    · exact q
    · exact absurd q kl.2
    · exact absurd q.1 k.ne
  have hroot : h.root = c1.l := by rw [hlt]; exact C.H.rootTop rfl
  obtain ⟨f1, f2⟩ := k.flags
  have f2 := f2 hlt
  have hlf : c1.l ≠ h.fresh := by have := k.al.2; omega
  have hyf : c1.y ≠ h.fresh := by have := k.ay.2; omega
  refine ⟨newRoot true h c1, R.to ?_, rfl, rfl, ?_, ?_⟩
  · simp only [step]
    rw [if_neg (by unfold maxRounds; omega), if_pos hp, f1, f2]
    simp [hroot]
  · intro m hm
    simp only [newRoot, mod_node, upd, if_neg k.ne, if_neg k.ne.symm, if_neg hlf, if_neg hyf, if_neg hm]
    by_cases e1 : m = c1.l
    · subst e1; simp [hlf]
    · by_cases e2 : m = c1.y
      · subst e2; simp [e1, hyf]
      · simp [e1, e2]
  · simp [newRoot, mod_node, upd, hlf.symm, hyf.symm]

end Verif.Index
