import Verif.Proof.IndexLimit2
set_option linter.unusedSimpArgs false
set_option linter.unusedVariables false
/-! A schedule that uses up the rounds of a split, part 3: inserts of thread 1. -/
namespace Verif.Index
open Verif.Internode
variable {V : Type} {p0 : Pc V} {c : Ctx V}

/-- Nodes up to height `k` keep their contents, those below it their parents. -/
structure Keep (k : Nat) (h h' : Heap V) : Prop where
  fresh : h.fresh ≤ h'.fresh
  ht : ∀ m, Al h m → (h'.node m).ht = (h.node m).ht
  lo : ∀ m, Al h m → (h'.node m).lo = (h.node m).lo
  ents : ∀ m, Al h m → (h'.node m).ents = (h.node m).ents
  next : ∀ m, Al h m → (h'.node m).next = (h.node m).next
  arr : ∀ m, Al h m → (h.node m).ht ≤ k → (h'.node m).arr = (h.node m).arr
  par : ∀ m, Al h m → (h.node m).ht < k → (h'.node m).parent = (h.node m).parent

theorem Keep.trans {j k : Nat} {h h' h'' : Heap V} (a : Keep j h h') (b : Keep k h' h'') (hjk : j ≤ k) : Keep j h h'' := by
  have A : ∀ {m}, Al h m → Al h' m := fun hm => hm.mono a.fresh
  refine ⟨Nat.le_trans a.fresh b.fresh, ?_, ?_, ?_, ?_, ?_, ?_⟩
  · intro m hm; rw [b.ht m (A hm), a.ht m hm]
  · intro m hm; rw [b.lo m (A hm), a.lo m hm]
  · intro m hm; rw [b.ents m (A hm), a.ents m hm]
  · intro m hm; rw [b.next m (A hm), a.next m hm]
  · intro m hm hk; rw [b.arr m (A hm) (by rw [a.ht m hm]; omega), a.arr m hm hk]
  · intro m hm hk; rw [b.par m (A hm) (by rw [a.ht m hm]; omega), a.par m hm hk]

/-- Thread 1 enters the new right neighbour of the last node of a level. -/
theorem Rd.rise {T : Nat} (S : Still p0 c) : ∀ (d : Nat) (h : Heap V) (c1 : Ctx V), Rd (two p0 h (.par c1)) → (h.node c.l).ht = 0 →
    0 < (h.node c1.l).ht → c1.rounds + d < 64 → c1.sep < T → Up T h d c1.l →
    ∃ h' d', Rd (two p0 h' (.climb c1.o c1.r)) ∧ Keep (h.node c1.l).ht h h' ∧ h'.fresh ≤ h.fresh + d + 1 ∧ Up T h' d' c1.y
  | 0, h, c1, R, h0, hh, hr, hs, u => by
    obtain ⟨C, k, kl⟩ := R.hush_par S
    obtain ⟨h', R', f1, f2, f3, f4, f5, f6⟩ := R.grows S u.1 (by omega)
    have ne : ∀ m, Al h m → m ≠ h.fresh := fun m hm => by have := hm.2; omega
    refine ⟨h', 1, R', ⟨by omega, ?_, ?_, ?_, ?_, ?_, ?_⟩, by omega, h.fresh, ?_, ?_, ?_, ?_, ?_, f2⟩
    · exact fun m hm => (f3 m (ne m hm)).1
    · exact fun m hm => (f3 m (ne m hm)).2.1
    · exact fun m hm => (f3 m (ne m hm)).2.2.1
    · exact fun m hm => (f3 m (ne m hm)).2.2.2.1
    · exact fun m hm _ => (f3 m (ne m hm)).2.2.2.2.1
    · intro m hm hlt
      rw [(f3 m (ne m hm)).2.2.2.2.2, if_neg]
      rintro (e | e)
      · rw [e] at hlt; omega
      · rw [e, k.ht] at hlt; omega
    · rw [(f3 _ (ne _ k.ay)).2.2.2.2.2, if_pos (.inr rfl)]
    · have := k.al.2; have := k.al.1; omega
    · rw [f6]; simp [rootArr, upd]
    · rw [f6]; intro i hi
      have : i = 0 := by simp [rootArr] at hi; omega
      subst this; simpa [rootArr, upd] using hs
    · exact f5
  | d + 1, h, c1, R, h0, hh, hr, hs, ⟨q, u1, u2, u3, u4, u5⟩ => by
    obtain ⟨C, k, kl⟩ := R.hush_par S
    obtain ⟨hq1, hq2⟩ := C.H.parent k.al u1 u2
    have ne : ∀ m, Al h m → m ≠ h.fresh := fun m hm => by have := hm.2; omega
    have hyq : c1.y ≠ q := by intro e; rw [← e, k.ht] at hq2; omega
    have hn : (h.node q).arr.nkeys ≤ 15 := by rw [C.arr hq1]; exact C.H.nk q hq1
    by_cases hf : (h.node q).arr.nkeys < 15
    · obtain ⟨h', R', f1, f2, f3⟩ := R.fits S h0 u1 u2 (by omega) hf (Nat.le_refl _) u3
      have fq : (h'.node q).arr = insertKeyAndChild (h.node q).arr (h.node q).arr.nkeys c1.sep c1.y := by rw [(f3 q).2.2.2.2.1, if_pos rfl]
      refine ⟨h', d + 1, R', ⟨by omega, ?_, ?_, ?_, ?_, ?_, ?_⟩, by omega, q, ?_, u2, ?_, ?_, ?_⟩
      · exact fun m hm => (f3 m).1
      · exact fun m hm => (f3 m).2.1
      · exact fun m hm => (f3 m).2.2.1
      · exact fun m hm => (f3 m).2.2.2.1
      · intro m hm hle; rw [(f3 m).2.2.2.2.1, if_neg]; rintro rfl; omega
      · intro m hm hlt; rw [(f3 m).2.2.2.2.2, if_neg]; rintro rfl; rw [k.ht] at hlt; omega
      · rw [(f3 _).2.2.2.2.2, if_pos rfl]
      · rw [fq, insert_nkeys, insert_child _ _ _ _ (Nat.le_refl _) _ (Nat.le_refl _), if_neg (by omega), if_pos rfl]
      · rw [fq, insert_nkeys]; intro i hi
        rw [insert_ikey _ _ _ _ (Nat.le_refl _) _ (by omega)]
        split
        · exact u4 i (by assumption)
        · rw [if_pos (by omega)]; exact hs
      · refine Up.congr C.H f2 hq1 ?_ ?_ u5
        · rw [(f3 q).2.2.2.2.2, if_neg hyq.symm]
        · intro m hm hlt
          rw [(f3 m).2.2.2.2.1, (f3 m).2.2.2.2.2, if_neg, if_neg]
          · exact ⟨rfl, rfl⟩
          · rintro rfl; rw [k.ht] at hlt; omega
          · rintro rfl; omega
    · have hf : (h.node q).arr.nkeys = 15 := by omega
      rw [hf] at u3 u4
      obtain ⟨h1, a, b, R1, f1, f2, f3, f4, f5⟩ := R.splits S h0 u1 u2 (by omega) hf (Nat.le_refl _) u3
      obtain ⟨x1, x2, x3, x4, x5, x6, x7, x8⟩ := split_spec inodeWidth (h.node q).arr emptyArr 15 c1.sep c1.y (by decide) hf (Nat.le_refl _)
      have hv : ∀ i, i ≤ 15 → vkey (h.node q).arr 15 c1.sep i < T := by
        intro i hi; unfold vkey
        split
        · exact u4 i (by assumption)
        · rw [if_pos (by omega)]; exact hs
      have kid := C.H.kid q hq1 (by omega)
      rw [← C.arr hq1, hf] at kid
      have hvc : ∀ j, j ≤ 16 → (h.node (vchild (h.node q).arr 15 c1.y j)).ht = (h.node c1.l).ht := by
        intro j hj; unfold vchild
        split
        · have := (kid j (by assumption)).2.2; omega
        · rw [if_pos (by omega)]; exact k.ht
      have hfr : (h.node c.l).ht = (h1.node c.l).ht := (f3 _ (ne _ C.ctx.al)).1.symm
      have hin : ∀ m, (∃ i, i ≤ (splitInto inodeWidth (h.node q).arr emptyArr 15 c1.sep c1.y).2.1.nkeys ∧
          (splitInto inodeWidth (h.node q).arr emptyArr 15 c1.sep c1.y).2.1.child i = m) → (h.node m).ht = (h.node c1.l).ht := by
        rintro m ⟨i, i1, i2⟩
        rw [x2] at i1
        rw [x7 i i1] at i2
        rw [← i2]; exact hvc _ (by simp only [inodeWidth] at i1 ⊢; omega)
      obtain ⟨h', d', R', kp, hfresh, hu⟩ := Rd.rise (T := T) S d h1 _ R1 (by rw [← hfr]; exact h0)
        (by rw [(f3 q (ne q hq1)).1]; omega) (by simp only; omega) (by simp only; rw [x5]; exact hv _ (by decide))
        (Up.congr C.H f2 hq1 (by
            rw [(f3 q (ne q hq1)).2.2.2.2.2, if_neg (fun e => by have := hin q e; omega), if_neg hyq.symm])
          (by
            intro m hm hlt
            simp only at hlt
            rw [(f3 m (ne m hm)).2.2.2.2.1, (f3 m (ne m hm)).2.2.2.2.2, if_neg, if_neg, if_neg]
            · exact ⟨rfl, rfl⟩
            · rintro rfl; rw [k.ht] at hlt; omega
            · intro e; have := hin m e; omega
            · rintro rfl; omega) u5)
      simp only at kp hfresh hu
      rw [(f3 q (ne q hq1)).1] at kp
      have k1 : Keep (h.node c1.l).ht h h1 := by
        refine ⟨by omega, ?_, ?_, ?_, ?_, ?_, ?_⟩
        · exact fun m hm => (f3 m (ne m hm)).1
        · exact fun m hm => (f3 m (ne m hm)).2.1
        · exact fun m hm => (f3 m (ne m hm)).2.2.1
        · exact fun m hm => (f3 m (ne m hm)).2.2.2.1
        · intro m hm hle; rw [(f3 m (ne m hm)).2.2.2.2.1, if_neg]; rintro rfl; omega
        · intro m hm hlt
          rw [(f3 m (ne m hm)).2.2.2.2.2, if_neg, if_neg]
          · rintro rfl; rw [k.ht] at hlt; omega
          · intro e; have := hin m e; omega
      have al1 : Al h1 h.fresh := ⟨by have := k.al.1; have := k.al.2; omega, by omega⟩
      have arr' : (h'.node h.fresh).arr = (splitInto inodeWidth (h.node q).arr emptyArr 15 c1.sep c1.y).2.1 := by
        rw [kp.arr _ al1 (by rw [f4]), f5]
      have x2' : (splitInto inodeWidth (h.node q).arr emptyArr 15 c1.sep c1.y).2.1.nkeys = 7 := x2
      have last : (splitInto inodeWidth (h.node q).arr emptyArr 15 c1.sep c1.y).2.1.child 7 = c1.y := by
        rw [x7 7 (by decide)]; exact vchild_new _ _ _
      refine ⟨h', d' + 1, R', k1.trans kp (by omega), by omega, h.fresh, ?_, by have := al1.1; omega, ?_, ?_, hu⟩
      · rw [kp.par _ (k.ay.mono (by omega)) (by rw [(f3 _ (ne _ k.ay)).1, k.ht]; omega), (f3 _ (ne _ k.ay)).2.2.2.2.2, if_pos]
        exact ⟨7, by rw [x2'], last⟩
      · rw [arr', x2']; exact last
      · rw [arr', x2']; intro i hi
        rw [x6 i (by simp only [inodeWidth]; omega)]
        exact hv _ (by simp only [inodeWidth]; omega)

/-- Thread 1 inserts into leaf `a`, the left neighbour of `l` below the same parent `p`; every key from `T` to `B` goes there. -/
structure Good (T B : Nat) (h : Heap V) (l p a n m d : Nat) : Prop where
  all : Al h l
  ala : Al h a
  hl : (h.node l).ht = 0
  ha : (h.node a).ht = 0
  pl : (h.node l).parent = p
  pa : (h.node a).parent = p
  p0 : p ≠ 0
  nk : (h.node p).arr.nkeys = n
  n1 : 1 ≤ n
  last : (h.node p).arr.child n = l
  prev : (h.node p).arr.child (n - 1) = a
  keys : ∀ i, i + 1 < n → (h.node p).arr.ikey i < T
  big : B ≤ (h.node p).arr.ikey (n - 1)
  big2 : (h.node p).arr.ikey (n - 1) < B + 24
  next : (h.node a).next = l
  ents : ∀ e, e ∈ (h.node a).ents → e.1 < T
  len : (h.node a).ents.length = m
  m24 : m ≤ 24
  lo : B ≤ (h.node l).lo
  up : Up T h d p

/-- The two leaves of thread 0 are as they were. -/
def Same (c : Ctx V) (h h' : Heap V) : Prop :=
  ∀ m, m = c.l ∨ m = c.y → (h'.node m).lo = (h.node m).lo ∧ (h'.node m).ents = (h.node m).ents ∧ (h'.node m).next = (h.node m).next

theorem Same.trans {h h' h'' : Heap V} (a : Same c h h') (b : Same c h' h'') : Same c h h'' := fun m hm =>
  ⟨(b m hm).1.trans (a m hm).1, (b m hm).2.1.trans (a m hm).2.1, (b m hm).2.2.trans (a m hm).2.2⟩

theorem lookup_above {t : Nat} : ∀ {es : List (Nat × V)}, (∀ e, e ∈ es → e.1 < t) → lookup t es = none
  | [], _ => rfl
  | e :: es, h => by
    simp only [lookup]
    rw [if_neg (by have := h e (by simp); omega)]
    exact lookup_above fun x hx => h x (by simp [hx])

theorem put_above {t : Nat} {v : V} : ∀ {es : List (Nat × V)}, (∀ e, e ∈ es → e.1 < t) → put t v es = es ++ [(t, v)]
  | [], _ => rfl
  | e :: es, h => by
    have := h e (by simp)
    simp only [put]
    rw [if_neg (by omega), if_neg (by omega), put_above fun x hx => h x (by simp [hx])]
    rfl

section insert
variable {h : Heap V} {T B p a n m d t : Nat} {v : V}

theorem Good.ne_l (G : Good T B h c.l p a n m d) (C : Hush h c [] 0) : a ≠ c.l := by
  obtain ⟨hq1, hq2⟩ := C.H.parent G.all G.pl G.p0
  have inj := C.H.inj p hq1 (by omega)
  rw [← C.arr hq1, G.nk] at inj
  intro e
  have := inj (n - 1) n (by omega) (Nat.le_refl _) (by rw [G.prev, G.last]; exact e)
  have := G.n1; omega

/-- The way to leaf `a`. -/
theorem Good.reach (G : Good T B h c.l p a n m d) (S : Still p0 c) {r : Nat} (hr : Al h r) (hh : 0 < (h.node r).ht)
    (h1 : T ≤ t) (h2 : t < B) (R : Rd (two p0 h (.climb (.insert t v) r))) :
    Rd (two p0 h (.sect (.insert t v) h.root a)) ∧ Hush h c [] 0 := by
  have C : Hush h c [] 0 := R.hush S (by simp) (by simp [Index.right]) (fun n => id)
  have R1 := Rd.climbs C G.hl _ r (Nat.le_add_left _ _) hr hh R
  obtain ⟨hq1, hq2⟩ := C.H.parent G.all G.pl G.p0
  have R2 := Rd.down (T := T) (o := .insert t v) h1 C G.hl hq1 G.up R1
  have hu := C.unl1 G.hl hq1 (by omega) (by simp)
  have R3 := Rd.descend (k := n - 1) hu (C.nospl hq1 hu) (by omega) (by rw [G.nk]; omega) (by rw [G.prev]; exact C.ne0 G.ala)
    (fun j hj => by have := G.keys j (by omega); simp only [Op.key]; omega)
    (fun j hj hj' => by
      have : j = n - 1 := by rw [G.nk] at hj'; omega
      rw [this]; have := G.big; simp only [Op.key]; omega) R2
  rw [G.prev] at R3
  have hay : a ≠ c.y := by
    intro e; have := C.ctx.py; rw [← e, G.pa] at this; exact G.p0 this
  have hua := C.unl a G.ala (G.ne_l C) hay (by simp)
  have R4 : Rd (two p0 h (.adv (.insert t v) h.root maxHops a)) := R3.to (by
    simp [step, hua, G.ha])
  refine ⟨R4.to ?_, C⟩
  have : maxHops = 127 + 1 := rfl
  rw [this]
  simp only [step]
  rw [if_neg]
  rw [G.next]
  rintro ⟨_, e⟩
  have := G.lo
  simp only [Op.key] at e; omega

/-- The leaf has room. -/
theorem Good.insert (G : Good T B h c.l p a n m d) (S : Still p0 c) {r : Nat} (hr : Al h r) (hh : 0 < (h.node r).ht)
    (h1 : T ≤ t) (h2 : t < B) (hm : m < 24) (R : Rd (two p0 h (.climb (.insert t v) r))) :
    ∃ h', Rd (two p0 h' (.done (.insert t v) none)) ∧ h'.fresh = h.fresh ∧ Good (t + 1) B h' c.l p a n (m + 1) d ∧ Same c h h' := by
  obtain ⟨R1, C⟩ := G.reach S hr hh h1 h2 R
  have hal := G.ne_l C
  obtain ⟨hq1, hq2⟩ := C.H.parent G.all G.pl G.p0
  have hap : a ≠ p := by intro e; have := G.ha; rw [e] at this; omega
  have hlp : c.l ≠ p := by intro e; have := G.hl; rw [e] at this; omega
  have hay : a ≠ c.y := by
    intro e; have := C.ctx.py; rw [← e, G.pa] at this; exact G.p0 this
  have hua := C.unl a G.ala hal hay (by simp)
  have he : ∀ e, e ∈ (h.node a).ents → e.1 < t := fun e he => by have := G.ents e he; omega
  refine ⟨_, R1.to (h' := h.mod a (fun n => ({ n.lock with ents := put t v n.ents } : Node V).unlock)) ?_, rfl, ?_, ?_⟩
  · simp only [step, hua, Bool.false_eq_true, if_false]
    rw [if_neg (by rw [G.next]; rintro ⟨_, e⟩; have := G.lo; omega), lookup_above he]
    simp only
    rw [if_pos (by rw [G.len]; exact hm)]
  · constructor <;> try simp only [mod_node, if_neg hal.symm, if_neg hap.symm, if_true, unlock_ht, unlock_parent, unlock_next, unlock_ents, Node.lock]
    · exact G.all
    · exact G.ala
    · exact G.hl
    · exact G.ha
    · exact G.pl
    · exact G.pa
    · exact G.p0
    · exact G.nk
    · exact G.n1
    · exact G.last
    · exact G.prev
    · intro i hi; have := G.keys i hi; omega
    · exact G.big
    · exact G.big2
    · exact G.next
    · rw [put_above he]; intro e hmem
      rcases List.mem_append.1 hmem with hmem | hmem
      · have := he e hmem; omega
      · rw [List.mem_singleton.1 hmem]; simp
    · rw [put_above he]; simp [G.len]
    · omega
    · exact G.lo
    · have u : Up T (h.mod a fun n => ({ n.lock with ents := put t v n.ents } : Node V).unlock) d p := by
        refine Up.congr C.H (mod_root _ _ _) hq1 ?_ ?_ G.up
        · simp only [mod_node, if_neg hap.symm]
        · intro k hk hlt
          rw [mod_node, if_neg]
          · exact ⟨rfl, rfl⟩
          · rintro rfl; rw [G.ha] at hlt; omega
      exact u.mono (by omega)
  · rintro m (rfl | rfl)
    · simp only [mod_node, if_neg hal.symm, and_self]
    · simp only [mod_node, if_neg hay.symm, and_self]

/-- The leaf is split. -/
theorem Good.cut (G : Good T B h c.l p a n m d) (S : Still p0 c) {r : Nat} (hr : Al h r) (hh : 0 < (h.node r).ht)
    (h1 : T ≤ t) (h2 : t < B) (hm : m = 24) (R : Rd (two p0 h (.climb (.insert t v) r))) :
    ∃ s, ∃ h1, Rd (two p0 h1 (.par ⟨.insert t v, h.root, a, h.fresh, s, false, false, 0, 0⟩)) ∧ s < T ∧ h1.fresh = h.fresh + 1 ∧ h1.root = h.root ∧
      (∀ k, k ≠ h.fresh → (h1.node k).ht = (h.node k).ht ∧ (h1.node k).lo = (h.node k).lo ∧ (h1.node k).arr = (h.node k).arr ∧
        (h1.node k).parent = (h.node k).parent) ∧
      (h1.node h.fresh).ht = 0 ∧ (h1.node h.fresh).next = c.l ∧ (h1.node h.fresh).ents.length = 12 ∧
      (∀ e, e ∈ (h1.node h.fresh).ents → e.1 < T) ∧ Same c h h1 := by
  obtain ⟨R1, C⟩ := G.reach S hr hh h1 h2 R
  have hal := G.ne_l C
  obtain ⟨hq1, hq2⟩ := C.H.parent G.all G.pl G.p0
  have hay : a ≠ c.y := by
    intro e; have := C.ctx.py; rw [← e, G.pa] at this; exact G.p0 this
  have hua := C.unl a G.ala hal hay (by simp)
  have he : ∀ e, e ∈ (h.node a).ents → e.1 < t := fun e he => by have := G.ents e he; omega
  have haf : a ≠ h.fresh := by have := G.ala.2; omega
  have hroot : (h.root == a) = false := by
    apply beq_eq_false_iff_ne.2
    intro e
    have := C.H.low p hq1
    rw [← C.H.rootTop rfl, e, G.ha] at this; omega
  have hl12 : ((h.node a).ents.drop 12).length = 12 := by rw [List.length_drop, G.len, hm]
  refine ⟨firstKey ((h.node a).ents.drop 12), splitLeaf h a, R1.to ?_, ?_, rfl, rfl, ?_, ?_⟩
  · simp only [step, hua, Bool.false_eq_true, if_false]
    rw [if_neg (by rw [G.next]; rintro ⟨_, e⟩; have := G.lo; omega), lookup_above he]
    simp only
    rw [if_neg (by rw [G.len, hm]; decide)]
    have hp0 : (p == 0) = false := beq_eq_false_iff_ne.2 G.p0
    simp [hroot, G.pa, hp0, leafWidth]
  · cases e : (h.node a).ents.drop 12 with
    | nil => rw [e] at hl12; simp at hl12
    | cons x xs => exact G.ents x (List.mem_of_mem_drop (by rw [e]; simp))
  · intro k hk
    simp only [splitLeaf, upd, if_neg hk]
    by_cases e : k = a
    · subst e; simp
    · simp [e]
  · simp only [splitLeaf, upd, if_true]
    refine ⟨trivial, G.next, ?_, ?_, ?_⟩
    · exact hl12
    · intro e hmem; exact G.ents e (List.mem_of_mem_drop hmem)
    · rintro m (rfl | rfl)
      · have : c.l ≠ h.fresh := by have := G.all.2; omega
        simp only [splitLeaf, upd, if_neg this, if_neg hal.symm, and_self]
      · have : c.y ≠ h.fresh := by have := C.ctx.ay.2; omega
        simp only [splitLeaf, upd, if_neg this, if_neg hay.symm, and_self]

/-- The leaf is split and the parent has room. -/
theorem Good.split (G : Good T B h c.l p a n m d) (S : Still p0 c) {r : Nat} (hr : Al h r) (hh : 0 < (h.node r).ht)
    (h1 : T ≤ t) (h2 : t < B) (hm : m = 24) (hn : n < 15) (R : Rd (two p0 h (.climb (.insert t v) r))) :
    ∃ h' r' a', Rd (two p0 h' (.climb (.insert t v) r')) ∧ Al h' r' ∧ 0 < (h'.node r').ht ∧ h'.fresh = h.fresh + 1 ∧
      Good T B h' c.l p a' (n + 1) 12 d ∧ Same c h h' := by
  have C : Hush h c [] 0 := R.hush S (by simp) (by simp [Index.right]) (fun n => id)
  have hal := G.ne_l C
  obtain ⟨hq1, hq2⟩ := C.H.parent G.all G.pl G.p0
  obtain ⟨s, h1', R1, hs, e1, e2, e3, e4, e5, e6, e7, e8⟩ := G.cut S hr hh h1 h2 hm R
  have ne : ∀ m, Al h m → m ≠ h.fresh := fun m hm => by have := hm.2; omega
  have np := e3 p (ne p hq1)
  have na := e3 a (ne a G.ala)
  have nl := e3 c.l (ne _ G.all)
  obtain ⟨h', R', f1, f2, f3⟩ := R1.fits (q := p) (idx := n - 1) S (by rw [nl.1]; exact G.hl) (by simp only; rw [na.2.2.2]; exact G.pa) G.p0
    (by simp only; omega) (by rw [np.2.2.1, G.nk]; exact hn) (by rw [np.2.2.1, G.nk]; omega) (by simp only; rw [np.2.2.1]; exact G.prev)
  simp only at f3 R'
  rw [np.2.2.1] at f3
  have hpa : (h'.node p).arr = insertKeyAndChild (h.node p).arr (n - 1) s h.fresh := by rw [(f3 p).2.2.2.2.1, if_pos rfl]
  have n1 := G.n1
  have hrt : Al h h.root := C.H.rootAl
  have hroot0 : 0 < (h.node h.root).ht := by
    have := C.H.low p hq1
    rw [← C.H.rootTop rfl] at this; omega
  have pl : (h'.node c.l).parent = p := by
    rw [(f3 c.l).2.2.2.2.2, if_neg (ne _ G.all), nl.2.2.2]; exact G.pl
  refine ⟨h', h.root, h.fresh, R', hrt.mono (by omega), ?_, by omega, ?_, e8.trans fun m _ => ⟨(f3 m).2.1, (f3 m).2.2.1, (f3 m).2.2.2.1⟩⟩
  · rw [(f3 _).1, (e3 _ (ne _ hrt)).1]; exact hroot0
  · constructor
    · exact G.all.mono (by omega)
    · exact ⟨by have := hq1.1; have := hq1.2; omega, by omega⟩
    · rw [(f3 _).1, nl.1]; exact G.hl
    · rw [(f3 _).1]; exact e4
    · exact pl
    · rw [(f3 _).2.2.2.2.2, if_pos rfl]
    · exact G.p0
    · rw [hpa, insert_nkeys, G.nk]
    · omega
    · rw [hpa, insert_child _ _ _ _ (by rw [G.nk]; omega) _ (by rw [G.nk]), if_neg (by omega), if_neg (by omega)]
      exact G.last
    · rw [hpa, insert_child _ _ _ _ (by rw [G.nk]; omega) _ (by rw [G.nk]; omega), if_neg (by omega), if_pos (by omega)]
    · intro i hi
      rw [hpa, insert_ikey _ _ _ _ (by rw [G.nk]; omega) _ (by rw [G.nk]; omega)]
      split
      · exact G.keys i (by omega)
      · rw [if_pos (by omega)]; exact hs
    · rw [hpa, insert_ikey _ _ _ _ (by rw [G.nk]; omega) _ (by rw [G.nk]; omega), if_neg (by omega), if_neg (by omega)]
      exact G.big
    · rw [hpa, insert_ikey _ _ _ _ (by rw [G.nk]; omega) _ (by rw [G.nk]; omega), if_neg (by omega), if_neg (by omega)]
      exact G.big2
    · rw [(f3 _).2.2.2.1]; exact e5
    · rw [(f3 _).2.2.1]; exact e7
    · rw [(f3 _).2.2.1]; exact e6
    · omega
    · rw [(f3 _).2.1, nl.2.1]; exact G.lo
    · refine Up.congr C.H (by rw [f2, e2]) hq1 ?_ ?_ G.up
      · rw [(f3 _).2.2.2.2.2, if_neg (ne _ hq1), np.2.2.2]
      · intro k hk hlt
        rw [(f3 k).2.2.2.2.1, (f3 k).2.2.2.2.2, if_neg, if_neg (ne _ hk)]
        · exact ⟨(e3 k (ne k hk)).2.2.1, (e3 k (ne k hk)).2.2.2⟩
        · rintro rfl; omega

/-- The leaf is split and so is the parent; `l` gets another parent. -/
theorem Good.burst (G : Good T B h c.l p a n m d) (S : Still p0 c) {r : Nat} (hr : Al h r) (hh : 0 < (h.node r).ht)
    (h1 : T ≤ t) (h2 : t < B) (hm : m = 24) (hn : n = 15) (hd : d < 60) (R : Rd (two p0 h (.climb (.insert t v) r))) :
    ∃ h' r' p' a' d', Rd (two p0 h' (.climb (.insert t v) r')) ∧ Al h' r' ∧ 0 < (h'.node r').ht ∧ h'.fresh ≤ h.fresh + d + 3 ∧
      Good T B h' c.l p' a' 7 12 d' ∧ p' ≠ p ∧ Same c h h' := by
  have C : Hush h c [] 0 := R.hush S (by simp) (by simp [Index.right]) (fun n => id)
  have hal := G.ne_l C
  obtain ⟨hq1, hq2⟩ := C.H.parent G.all G.pl G.p0
  obtain ⟨s, h1', R1, hs, e1, e2, e3, e4, e5, e6, e7, e8⟩ := G.cut S hr hh h1 h2 hm R
  have ne : ∀ m, Al h m → m ≠ h.fresh := fun m hm => by have := hm.2; omega
  have ne1 : ∀ m, Al h m → m ≠ h1'.fresh := fun m hm => by have := hm.2; omega
  have np := e3 p (ne p hq1)
  have na := e3 a (ne a G.ala)
  have nl := e3 c.l (ne _ G.all)
  subst hn
  obtain ⟨C1, k1, _⟩ := R1.hush_par S
  obtain ⟨h2', x, y, R2, f1, f2, f3, f4, f5⟩ := R1.splits (q := p) (idx := 14) S (by rw [nl.1]; exact G.hl) (by simp only; rw [na.2.2.2]; exact G.pa) G.p0
    (by simp only; omega) (by rw [np.2.2.1, G.nk]) (by omega) (by simp only; rw [np.2.2.1]; exact G.prev)
  simp only at f3 f5 R2
  rw [np.2.2.1] at f3 f5 R2
  obtain ⟨x1, x2, x3, x4, x5, x6, x7, x8⟩ := split_spec inodeWidth (h.node p).arr emptyArr 14 s h.fresh (by decide) G.nk (by decide)
  have x2' : (splitInto inodeWidth (h.node p).arr emptyArr 14 s h.fresh).2.1.nkeys = 7 := x2
  have c7 : (splitInto inodeWidth (h.node p).arr emptyArr 14 s h.fresh).2.1.child 7 = c.l := by
    rw [x7 7 (by decide)]
    have : (inodeWidth + 1) / 2 + 1 + 7 = 16 := rfl
    rw [this]; unfold vchild
    rw [if_neg (by omega), if_neg (by omega)]
    exact G.last
  have c6 : (splitInto inodeWidth (h.node p).arr emptyArr 14 s h.fresh).2.1.child 6 = h.fresh := by
    rw [x7 6 (by decide)]; exact vchild_new _ _ _
  have kk : ∀ i, i < 6 → (splitInto inodeWidth (h.node p).arr emptyArr 14 s h.fresh).2.1.ikey i < T := by
    intro i hi
    rw [x6 i (by simp only [inodeWidth]; omega)]
    have : (inodeWidth + 1) / 2 + 1 + i = 9 + i := rfl
    rw [this]; unfold vkey
    split
    · exact G.keys _ (by omega)
    · rw [if_pos (by omega)]; exact hs
  have kb : B ≤ (splitInto inodeWidth (h.node p).arr emptyArr 14 s h.fresh).2.1.ikey 6 := by
    rw [x6 6 (by decide)]
    have : (inodeWidth + 1) / 2 + 1 + 6 = 15 := rfl
    rw [this]; unfold vkey
    rw [if_neg (by omega), if_neg (by omega)]
    exact G.big
  have kb2 : (splitInto inodeWidth (h.node p).arr emptyArr 14 s h.fresh).2.1.ikey 6 < B + 24 := by
    rw [x6 6 (by decide)]
    have : (inodeWidth + 1) / 2 + 1 + 6 = 15 := rfl
    rw [this]; unfold vkey
    rw [if_neg (by omega), if_neg (by omega)]
    exact G.big2
  have pop : (splitInto inodeWidth (h.node p).arr emptyArr 14 s h.fresh).2.2.1 < T := by
    rw [x5]
    have : (inodeWidth + 1) / 2 = 8 := rfl
    rw [this]; unfold vkey
    rw [if_pos (by omega)]
    exact G.keys _ (by omega)
  have kid := C.H.kid p hq1 (by omega)
  rw [← C.arr hq1, G.nk] at kid
  have hin : ∀ k, (∃ i, i ≤ (splitInto inodeWidth (h.node p).arr emptyArr 14 s h.fresh).2.1.nkeys ∧
      (splitInto inodeWidth (h.node p).arr emptyArr 14 s h.fresh).2.1.child i = k) → (h1'.node k).ht = 0 := by
    rintro k ⟨i, i1, i2⟩
    rw [x2] at i1
    rw [x7 i i1] at i2
    rw [← i2]; unfold vchild
    have hW : (inodeWidth + 1) / 2 + 1 + i = 9 + i := rfl
    have i7 : i ≤ 7 := i1
    rw [hW]
    have : ∀ j, j ≤ 15 → (h1'.node ((h.node p).arr.child j)).ht = 0 := by
      intro j hj
      have kj := kid j hj
      rw [(e3 _ (ne _ kj.1)).1]; have := kj.2.2; have := G.hl; omega
    split
    · exact this _ (by omega)
    · split
      · exact e4
      · exact this _ (by omega)
  have hnp : (h2'.node p).parent = (h.node p).parent := by
    rw [(f3 p (ne1 p hq1)).2.2.2.2.2, if_neg, if_neg (ne p hq1), np.2.2.2]
    intro e; have := hin p e; rw [np.1] at this; omega
  obtain ⟨h', d', R', kp, hfresh, hu⟩ := Rd.rise (T := T) S d h2' _ R2 (by rw [(f3 _ (ne1 _ G.all)).1, nl.1]; exact G.hl)
    (by simp only; rw [(f3 p (ne1 p hq1)).1, np.1]; omega) (by simp only; omega) pop
    (Up.congr C.H (by rw [f2, e2]) hq1 hnp (by
      intro k hk hlt
      simp only at hlt
      rw [(f3 k (ne1 k hk)).2.2.2.2.1, (f3 k (ne1 k hk)).2.2.2.2.2, if_neg, if_neg, if_neg (ne k hk)]
      · exact ⟨(e3 k (ne k hk)).2.2.1, (e3 k (ne k hk)).2.2.2⟩
      · intro e; have := hin k e; rw [(e3 k (ne k hk)).1] at this; omega
      · rintro rfl; omega) G.up)
  simp only at kp hfresh hu R'
  rw [(f3 p (ne1 p hq1)).1, np.1] at kp
  have al2 : Al h2' h1'.fresh := ⟨by have := hq1.1; have := hq1.2; omega, by omega⟩
  have all1 : Al h1' c.l := G.all.mono (by omega)
  have all2 : Al h2' c.l := G.all.mono (by omega)
  have alb1 : Al h1' h.fresh := ⟨by have := hq1.1; have := hq1.2; omega, by omega⟩
  have alb2 : Al h2' h.fresh := alb1.mono (by omega)
  have hbf : h.fresh ≠ h1'.fresh := by omega
  have ha' : (h'.node h1'.fresh).arr = (splitInto inodeWidth (h.node p).arr emptyArr 14 s h.fresh).2.1 := by
    rw [kp.arr _ al2 (by rw [f4, np.1]), f5]
  have hrt : Al h h.root := C.H.rootAl
  have hroot0 : 0 < (h.node h.root).ht := by
    have := C.H.low p hq1
    rw [← C.H.rootTop rfl] at this; omega
  have fl := f3 c.l (ne1 _ G.all)
  have fb := f3 h.fresh hbf
  refine ⟨h', h.root, h1'.fresh, h.fresh, d', R', hrt.mono (by have := kp.fresh; omega), ?_, by omega, ?_, by have := hq1.2; omega, ?_⟩
  · rw [kp.ht _ (hrt.mono (by omega)), (f3 _ (ne1 _ hrt)).1, (e3 _ (ne _ hrt)).1]; exact hroot0
  · have kf := kp.fresh
    constructor
    · exact G.all.mono (by omega)
    · exact alb2.mono kf
    · rw [kp.ht _ all2, fl.1, nl.1]; exact G.hl
    · rw [kp.ht _ alb2, fb.1]; exact e4
    · rw [kp.par _ all2 (by rw [fl.1, nl.1, G.hl]; omega), fl.2.2.2.2.2, if_pos]
      exact ⟨7, by rw [x2'], c7⟩
    · rw [kp.par _ alb2 (by rw [fb.1, e4]; omega), fb.2.2.2.2.2, if_pos]
      exact ⟨6, by rw [x2']; omega, c6⟩
    · have := al2.1; omega
    · rw [ha', x2']
    · omega
    · rw [ha']; exact c7
    · rw [ha']; exact c6
    · intro i hi; rw [ha']; exact kk i (by omega)
    · rw [ha']; exact kb
    · rw [ha']; exact kb2
    · rw [kp.next _ alb2, fb.2.2.2.1]; exact e5
    · rw [kp.ents _ alb2, fb.2.2.1]; exact e7
    · rw [kp.ents _ alb2, fb.2.2.1]; exact e6
    · omega
    · rw [kp.lo _ all2, fl.2.1, nl.2.1]; exact G.lo
    · exact hu
  · intro m hm
    have hm1 : Al h m := by rcases hm with rfl | rfl; exacts [G.all, C.ctx.ay]
    have hm2 : Al h2' m := hm1.mono (by omega)
    have a := e8 m hm
    have b := f3 m (ne1 m hm1)
    exact ⟨by rw [kp.lo m hm2, b.2.1, a.1], by rw [kp.ents m hm2, b.2.2.1, a.2.1], by rw [kp.next m hm2, b.2.2.2.1, a.2.2]⟩

end insert
end Verif.Index
