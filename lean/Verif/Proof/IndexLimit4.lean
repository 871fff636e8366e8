import Verif.Proof.IndexLimit3
set_option linter.unusedSimpArgs false
set_option linter.unusedVariables false
/-! A schedule that uses up the rounds of a split, part 4: the rounds of thread 0. -/
namespace Verif.Index
open Verif.Internode
variable {V : Type} {p0 : Pc V} {c : Ctx V}

theorem Good.congr {T B : Nat} {h h' : Heap V} {l p a n m d : Nat} {O Q : Nat → Prop} (H : HInv true h O Q) (G : Good T B h l p a n m d)
    (hf : h'.fresh = h.fresh) (hr : h'.root = h.root)
    (e : ∀ k, (h'.node k).ht = (h.node k).ht ∧ (h'.node k).lo = (h.node k).lo ∧ (h'.node k).ents = (h.node k).ents ∧
      (h'.node k).next = (h.node k).next ∧ (h'.node k).arr = (h.node k).arr ∧ (h'.node k).parent = (h.node k).parent) :
    Good T B h' l p a n m d := by
  have e1 := fun k => (e k).1
  have e2 := fun k => (e k).2.1
  have e3 := fun k => (e k).2.2.1
  have e4 := fun k => (e k).2.2.2.1
  have e5 := fun k => (e k).2.2.2.2.1
  have e6 := fun k => (e k).2.2.2.2.2
  have hu : Up T h' d p := Up.congr H hr (H.parent G.all G.pl G.p0).1 (e6 _) (fun k _ _ => ⟨e5 k, e6 k⟩) G.up
  constructor <;> try simp only [e1, e2, e3, e4, e5, e6]
  · exact G.all.mono (by omega)
  · exact G.ala.mono (by omega)
  · exact G.hl
  · exact G.ha
  · exact G.pl
  · exact G.pa
  · exact G.p0
  · exact G.nk
  · exact G.n1
  · exact G.last
  · exact G.prev
  · exact G.keys
  · exact G.big
  · exact G.big2
  · exact G.next
  · exact G.ents
  · exact G.len
  · exact G.m24
  · exact G.lo
  · exact hu

theorem Good.n15 {T B : Nat} {h : Heap V} {p a n m d : Nat} {L : List Nat} {y : Nat} (G : Good T B h c.l p a n m d) (C : Hush h c L y) : n ≤ 15 := by
  obtain ⟨hq1, hq2⟩ := C.H.parent G.all G.pl G.p0
  have := C.H.nk p hq1
  rw [← C.arr hq1, G.nk] at this; exact this

theorem Good.d60 {T B : Nat} {h : Heap V} {p a n m d : Nat} {L : List Nat} {y : Nat} (G : Good T B h c.l p a n m d) (C : Hush h c L y)
    (hf : h.fresh ≤ 2 ^ 24) : d < 60 := by
  obtain ⟨hq1, hq2⟩ := C.H.parent G.all G.pl G.p0
  have h1 := Up.ht C.H hq1 G.up
  have h2 := height_log C.H C.half
  rw [← C.H.rootTop rfl] at h2
  by_contra hd
  have : (8 : Nat) ^ 24 ≤ 8 ^ ((h.node h.root).ht - 1) := Nat.pow_le_pow_right (by decide) (by omega)
  have : (2 : Nat) ^ 24 < 8 ^ 24 := by decide
  omega

/-- Between two calls of thread 1. -/
def Rest (c1 : Pc V) : Prop := c1 = .idle ∨ ∃ a b, c1 = .done a b

/-- Thread 1 inserts until leaf `l` has another parent. -/
theorem Rd.push (v : V) (S : Still p0 c) : ∀ (N : Nat) (h : Heap V) (c1 : Pc V) (T B p a n m d : Nat), Rd (two p0 h c1) → Rest c1 →
    Good T B h c.l p a n m d → (15 - n) * 24 + (24 - m) ≤ N → T + N < B → B ≤ 2 ^ 64 → h.fresh + N + 1 ≤ 2 ^ 24 →
    ∃ h' c1' T' p' a' n' m' d', Rd (two p0 h' c1') ∧ Rest c1' ∧ Good T' B h' c.l p' a' n' m' d' ∧ T' ≤ T + N + 1 ∧
      h'.fresh ≤ h.fresh + N + 63 ∧ p' ≠ p ∧ Same c h h'
  | N, h, c1, T, B, p, a, n, m, d, R, hc, G, hN, hB, hB', hf => by
    have R1 := R.call hc (.insert T v) (by simp only [Op.key]; omega)
    have C : Hush h c [] 0 := R1.hush S (by simp) (by simp [Index.right]) (fun n => id)
    obtain ⟨hq1, hq2⟩ := C.H.parent G.all G.pl G.p0
    have hr := C.H.rootAl
    have hr0 : 0 < (h.node h.root).ht := by
      have := C.H.low p hq1
      rw [← C.H.rootTop rfl] at this; omega
    have n15 := G.n15 C
    have m24 := G.m24
    by_cases hm : m < 24
    · obtain ⟨h1, R2, f1, G1, Y1⟩ := G.insert S hr hr0 (Nat.le_refl _) (by omega) hm R1
      obtain ⟨N, rfl⟩ : ∃ M, N = M + 1 := ⟨N - 1, by omega⟩
      obtain ⟨h', c1', T', p', a', n', m', d', A1, A2, A3, A4, A5, A6, A7⟩ :=
        Rd.push v S N h1 _ (T + 1) B p a n (m + 1) d R2 (.inr ⟨_, _, rfl⟩) G1 (by omega) (by omega) hB' (by omega)
      exact ⟨h', c1', T', p', a', n', m', d', A1, A2, A3, by omega, by omega, A6, Y1.trans A7⟩
    · have hm : m = 24 := by omega
      by_cases hn : n < 15
      · obtain ⟨h1, r', a1, R2, hr1, hr2, f1, G1, Y1⟩ := G.split S hr hr0 (Nat.le_refl _) (by omega) hm hn R1
        obtain ⟨h2, R3, f2, G2, Y2⟩ := G1.insert S hr1 hr2 (Nat.le_refl _) (by omega) (by decide) R2
        obtain ⟨N, rfl⟩ : ∃ M, N = M + 1 := ⟨N - 1, by omega⟩
        obtain ⟨h', c1', T', p', a', n', m', d', A1, A2, A3, A4, A5, A6, A7⟩ :=
          Rd.push v S N h2 _ (T + 1) B p a1 (n + 1) (12 + 1) d R3 (.inr ⟨_, _, rfl⟩) G2 (by omega) (by omega) hB' (by omega)
        exact ⟨h', c1', T', p', a', n', m', d', A1, A2, A3, by omega, by omega, A6, Y1.trans (Y2.trans A7)⟩
      · have hn : n = 15 := by omega
        have hd := G.d60 C (by omega)
        obtain ⟨h1, r', p', a1, d', R2, hr1, hr2, f1, G1, hp, Y1⟩ := G.burst S hr hr0 (Nat.le_refl _) (by omega) hm hn hd R1
        obtain ⟨h2, R3, f2, G2, Y2⟩ := G1.insert S hr1 hr2 (Nat.le_refl _) (by omega) (by decide) R2
        exact ⟨h2, _, _, p', a1, _, _, d', R3, .inr ⟨_, _, rfl⟩, G2, by omega, by omega, hp, Y1.trans Y2⟩

/-- One round of thread 0 is lost. -/
theorem Rd.round (v : V) {h : Heap V} {c1 : Pc V} {T B p a n m d : Nat} (R : Rd (two (.par c) h c1)) (hc : Rest c1)
    (G : Good T B h c.l p a n m d) (hk : c.rounds < 64) (hB : T + 400 < B) (hB' : B ≤ 2 ^ 64) (hf : h.fresh + 500 ≤ 2 ^ 24) :
    ∃ h' c1' T' p' a' n' m' d', Rd (two (.par { c with rounds := c.rounds + 1, stale := 0 }) h' c1') ∧ Rest c1' ∧
      Good T' B h' c.l p' a' n' m' d' ∧ T' ≤ T + 400 ∧ h'.fresh ≤ h.fresh + 500 ∧ Same c h h' := by
  have R1 : Rd (two (.lck { c with rounds := c.rounds + 1 } p) h c1) := R.to0 (by
    simp only [step]
    rw [G.pl, if_neg (by simp only [maxRounds]; omega), if_neg G.p0])
  have S : Still (.lck { c with rounds := c.rounds + 1 } p) { c with rounds := c.rounds + 1 } := ⟨.inr ⟨p, rfl⟩⟩
  have G1 : Good T B h ({ c with rounds := c.rounds + 1 } : Ctx V).l p a n m d := G
  obtain ⟨h2, c2, T', p', a', n', m', d', R2, hc2, G2, e1, e2, hp, Y⟩ := Rd.push v S 399 h c1 T B p a n m d R1 hc G1
    (by have := G.n1; omega) (by omega) hB' (by omega)
  have nf : ∀ o e, c2 ≠ .fail o e := by rcases hc2 with rfl | ⟨_, _, rfl⟩ <;> simp
  have hold : Index.holds c2 = [] := by rcases hc2 with rfl | ⟨_, _, rfl⟩ <;> rfl
  obtain ⟨I, _⟩ := R2.inv2 S nf
  have C := R2.hush S nf (y := 0) (by rcases hc2 with rfl | ⟨_, _, rfl⟩ <;> simp [Index.right])
    (by rcases hc2 with rfl | ⟨_, _, rfl⟩ <;> exact fun n => id)
  rw [hold] at C
  obtain ⟨_, o2, o3⟩ : _ ∧ Al h2 p ∧ (h2.node p).ht = (h2.node c.l).ht + 1 := I.ok 0
  have hu := C.unl1 G2.hl o2 (by omega) (by simp)
  have R3 : Rd (two (.rechk { c with rounds := c.rounds + 1 } p) (h2.mod p Node.lock) c2) := R2.to0 (by
    simp only [step]; rw [hu]; rfl)
  have hlp : c.l ≠ p := by intro e; rw [← e] at o3; omega
  have R4 : Rd (two (.par { c with rounds := c.rounds + 1, stale := 0 }) ((h2.mod p Node.lock).mod p Node.unlock) c2) := R3.to0 (by
    simp only [step]
    rw [if_pos]
    rw [mod_node, if_neg hlp]
    have := G2.pl
    simp only at this
    rw [this]; exact hp)
  refine ⟨_, c2, T', p', a', n', m', d', R4, hc2, Good.congr C.H G2 rfl rfl ?_, by omega, by simp only [mod_fresh]; omega, ?_⟩
  rotate_left
  · refine Same.trans Y fun k _ => ?_
    simp only [mod_node]
    by_cases e : k = p
    · subst e; simp [Node.lock]
    · simp [e]
  intro k
  simp only [mod_node]
  by_cases e : k = p
  · subst e; simp [Node.lock]
  · simp [e]

/-- All rounds are lost. -/
theorem Rd.lose (v : V) : ∀ (K : Nat) {h : Heap V} {c : Ctx V} {c1 : Pc V} {T B p a n m d : Nat}, Rd (two (.par c) h c1) → Rest c1 →
    Good T B h c.l p a n m d → 64 ≤ c.rounds + K → T + 400 * K < B → B ≤ 2 ^ 64 → h.fresh + 500 * K ≤ 2 ^ 24 →
    ∃ h' c' c1' T' p' a' n' m' d', Rd (two (.par c') h' c1') ∧ Rest c1' ∧ Good T' B h' c.l p' a' n' m' d' ∧ T' ≤ B ∧ Same c h h' ∧
      64 ≤ c'.rounds ∧ c'.o = c.o ∧ c'.l = c.l ∧ c'.y = c.y
  | K, h, c, c1, T, B, p, a, n, m, d, R, hc, G, hk, hB, hB', hf => by
    by_cases h64 : 64 ≤ c.rounds
    · exact ⟨h, c, c1, T, p, a, n, m, d, R, hc, G, by omega, fun _ _ => ⟨rfl, rfl, rfl⟩, h64, rfl, rfl, rfl⟩
    · obtain ⟨M, hM⟩ : ∃ M, K = M + 1 := ⟨K - 1, by omega⟩
      have b1 : T + 400 < B := by omega
      have b2 : h.fresh + 500 ≤ 2 ^ 24 := by omega
      have b3 : c.rounds < 64 := by omega
      obtain ⟨h', c1', T', p', a', n', m', d', R1, A2, A3, A4, A5, A6⟩ := R.round v hc G b3 b1 hB' b2
      have A3 : Good T' B h' ({ c with rounds := c.rounds + 1, stale := 0 } : Ctx V).l p' a' n' m' d' := A3
      have b4 : 64 ≤ ({ c with rounds := c.rounds + 1, stale := 0 } : Ctx V).rounds + M := by simp only; omega
      have b5 : T' + 400 * M < B := by omega
      have b6 : h'.fresh + 500 * M ≤ 2 ^ 24 := by omega
      obtain ⟨h2, c2, c12, T2, p2, a2, n2, m2, d2, B1, B2, B3, B4, B5, B6, B7, B8, B9⟩ := Rd.lose v M R1 A2 A3 b4 b5 hB' b6
      exact ⟨h2, c2, c12, T2, p2, a2, n2, m2, d2, B1, B2, B3, B4, Same.trans A6 B5, B6, B7, B8, B9⟩
termination_by K => K

end Verif.Index
