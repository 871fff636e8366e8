import Verif.Proof.ChainMap
set_option linter.unusedSimpArgs false
set_option linter.unusedVariables false
/-!
# What a lookup has read, and when
-/
namespace Verif.Chain
open Verif.Internode (upd upd_same upd_ne)
open Verif.Perm (size get)
open Verif.Tree (PermOK Leaf Cell searchKlx ksufKeylenx layerKeylenx)
open Verif.Cas (In Try in_newPerm not_lockable not_frozen)
open Verif.Race (SlotIs SlotLeads RPc Out rstep interp)
variable {V : Type}

theorem cstep_idle {f : Bool} {leaf : Nat → LeafSt V} {c : CPc V} (h : cstep f leaf c = .idle) :
    c = .idle ∨ ∃ x, c = .leaf x .idle := by
  cases c with
  | idle => exact .inl rfl
  | leaf x c =>
    cases c <;> simp only [cstep] at h
    case idle => exact .inr ⟨x, rfl⟩
    all_goals first | cases h | (split at h <;> cases h)
  | _ =>
    simp only [cstep, advRet] at h
    first
    | cases h
    | (split at h
       · first
         | cases h
         | (split at h <;> cases h)
       · first
         | cases h
         | (split at h
            · first
              | cases h
              | (split at h <;> cases h)
            · first
              | cases h
              | (split at h <;> cases h)))

/-- A thread that is looking a key up goes on with it. -/
theorem rd_busy {f : Bool} {s : St V} {a : Act V} {i : Nat} (h0 : s.rd i ≠ .idle) (h1 : ∀ k r w, s.rd i ≠ .done k r w) :
    (act f s a).rd i = s.rd i ∨ (act f s a).rd i = cstep f s.leaf (s.rd i) := by
  cases a with
  | start j x k =>
    left
    unfold act; simp only
    split
    · rename_i e
      split
      · show upd s.rd j _ i = _
        by_cases ej : i = j
        · subst ej; exact absurd e h0
        · rw [upd_ne _ _ _ ej]
      · rfl
    · rename_i e
      split
      · show upd s.rd j _ i = _
        by_cases ej : i = j
        · subst ej; exact absurd e (h1 _ _ _)
        · rw [upd_ne _ _ _ ej]
      · rfl
    · rfl
  | read j =>
    show upd s.rd j _ i = _ ∨ upd s.rd j _ i = _
    by_cases ej : i = j
    · subst ej; rw [upd_same]; exact .inr rfl
    · rw [upd_ne _ _ _ ej]; exact .inl rfl
  | hold x =>
    left
    show (hstep s x).rd i = _
    unfold hstep
    split <;> first | rfl | (split <;> rfl)
  | lock x => left; unfold act; simp only; split <;> rfl
  | write x t ik kl c sf => left; unfold act; simp only; split <;> first | rfl | (split <;> rfl)
  | publish x pos off => left; unfold act; simp only; split <;> first | rfl | (split <;> rfl)
  | update x t v => left; unfold act; simp only; split <;> rfl
  | convert x t q => left; unfold act; simp only; split <;> first | rfl | (split <;> rfl)
  | giveUp x => left; unfold act; simp only; split <;> rfl
  | markSplit x => left; unfold act; simp only; split <;> rfl
  | freeze x sp y => left; unfold act; simp only; split <;> first | rfl | (split <;> rfl)
  | release y => left; unfold act; simp only; split <;> first | rfl | (split <;> rfl)

/-- At some moment the leaf was in the chain, unlocked, and its word was `v`. -/
def Seen (σ : Nat → St V) (a0 n x : Nat) (v : NV.W) : Prop :=
  ∃ a, a0 ≤ a ∧ a ≤ n ∧ (σ a).live x = true ∧ (σ a).hold x = .free ∧ ((σ a).leaf x).word = v

/-- At some moment the contents of the leaf were so. -/
def Evt (σ : Nat → St V) (x b n : Nat) (P : Leaf V → Prop) : Prop := ∃ c, b ≤ c ∧ c ≤ n ∧ P ((σ c).leaf x).b

/-- A permutation was loaded after the word, and then `Q`. -/
def Watch (σ : Nat → St V) (a0 n x : Nat) (v : NV.W) (p : BitVec 128) (Q : Nat → Prop) : Prop :=
  ∃ a b, a0 ≤ a ∧ a ≤ b ∧ b ≤ n ∧ (σ a).live x = true ∧ (σ a).hold x = .free ∧ ((σ a).leaf x).word = v ∧
    ((σ b).leaf x).b.perm = p ∧ Q b

/-- At some moment a leaf said this about the key. -/
def Found (σ : Nat → St V) (a0 n : Nat) (k : Key) (r : Out V) : Prop := ∃ j, a0 ≤ j ∧ j ≤ n ∧ Holds (σ j) k r

/-- What was read of the slot at position `i`. -/
def Ent (σ : Nat → St V) (x : Nat) (k : Key) (p : BitVec 128) (i n b : Nat) : Prop :=
  i < size 5 p ∧ Evt σ x b n fun l => l.ikey (get 5 p i) = k.ikey

/-- The length of slot `t` was read, then its pointer, which is not null, and then `Q`. -/
def PtrRead (σ : Nat → St V) (x b n t w : Nat) (c : Cell V) (Q : Nat → Prop) : Prop :=
  ∃ c2 c3, b ≤ c2 ∧ c2 ≤ c3 ∧ c3 ≤ n ∧ ((σ c2).leaf x).b.klx t = w ∧ ((σ c3).leaf x).b.cell t = c ∧ c ≠ .null ∧ Q c3

/-- What a search that succeeded has read after the pointer. -/
def Fits (σ : Nat → St V) (x n t w : Nat) (k : Key) (c3 : Nat) : Prop :=
  (w = searchKlx k ∧ (w = ksufKeylenx → Evt σ x c3 n fun l => l.ksuf t = some k.suffix)) ∨ (layerKeylenx ≤ w ∧ k.hasSuffix = true)

/-- What has been read, and when, by a lookup of `k` in leaf `x`. -/
def RTrail (σ : Nat → St V) (a0 n : Nat) (k : Key) (x : Nat) : RPc V → Prop
  | .idle => False
  | .stable k' => k' = k
  | .perm k' v => k' = k ∧ Seen σ a0 n x v
  | .ikey k' v p _ => k' = k ∧ Watch σ a0 n x v p fun _ => True
  | .klx k' v p i => k' = k ∧ Watch σ a0 n x v p (Ent σ x k p i n)
  | .ptr k' v p i w => k' = k ∧ Watch σ a0 n x v p fun b => Ent σ x k p i n b ∧ Evt σ x b n fun l => l.klx (get 5 p i) = w
  | .sufKlx k' v p i c | .suf k' v p i c => k' = k ∧ searchKlx k = ksufKeylenx ∧ Watch σ a0 n x v p fun b =>
      Ent σ x k p i n b ∧ PtrRead σ x b n (get 5 p i) ksufKeylenx c fun _ => True
  | .check k' _ none => k' = k
  | .check k' v (some (w, c)) => k' = k ∧ ∃ p i, Watch σ a0 n x v p fun b =>
      Ent σ x k p i n b ∧ PtrRead σ x b n (get 5 p i) w c (Fits σ x n (get 5 p i) w k)
  | .dirty k' => k' = k
  | .done k' r => k' = k ∧ Found σ a0 n k r

/-- What has been read, and when, by a lookup of `k` that began at step `a0`. -/
def Trail (σ : Nat → St V) (a0 n : Nat) (k : Key) : CPc V → Prop
  | .idle => False
  | .leaf x c => RTrail σ a0 n k x c
  | .adv1 _ k' _ => k' = k
  | .adv2 x k' _ ver | .adv3 x k' ver => k' = k ∧ Seen σ a0 n x ver
  | .adv4 _ _ k' => k' = k
  | .adv5 _ x k' ver | .adv6 _ x k' ver _ => k' = k ∧ Seen σ a0 n x ver
  | .next _ k' | .bound _ k' _ => k' = k
  | .done k' r _ => k' = k ∧ (r = .absent ∨ Found σ a0 n k r)

theorem Seen.mono {σ : Nat → St V} {a0 n x : Nat} {v : NV.W} (h : Seen σ a0 n x v) : Seen σ a0 (n + 1) x v := by
  obtain ⟨a, h1, h2, h3⟩ := h
  exact ⟨a, h1, by omega, h3⟩

theorem Evt.mono {σ : Nat → St V} {x b n : Nat} {P : Leaf V → Prop} (h : Evt σ x b n P) : Evt σ x b (n + 1) P := by
  obtain ⟨c, h1, h2, h3⟩ := h
  exact ⟨c, h1, by omega, h3⟩

theorem Watch.mono {σ : Nat → St V} {a0 n x : Nat} {v : NV.W} {p : BitVec 128} {Q Q' : Nat → Prop} (hQ : ∀ b, b ≤ n → Q b → Q' b)
    {n' : Nat} (hn : n ≤ n') (h : Watch σ a0 n x v p Q) : Watch σ a0 n' x v p Q' := by
  obtain ⟨a, b, h1, h2, h3, h4, h5, h6, h7, h8⟩ := h
  exact ⟨a, b, h1, h2, by omega, h4, h5, h6, h7, hQ b h3 h8⟩

theorem Found.mono {σ : Nat → St V} {a0 n : Nat} {k : Key} {r : Out V} (h : Found σ a0 n k r) : Found σ a0 (n + 1) k r := by
  obtain ⟨j, h2, h3, h4⟩ := h
  exact ⟨j, h2, by omega, h4⟩

theorem PtrRead.mono {σ : Nat → St V} {x b n n' t w : Nat} {c : Cell V} {Q Q' : Nat → Prop} (hn : n ≤ n') (hQ : ∀ j, j ≤ n → Q j → Q' j)
    (h : PtrRead σ x b n t w c Q) : PtrRead σ x b n' t w c Q' := by
  obtain ⟨c2, c3, h1, h2, h3, h4, h5, h6, h7⟩ := h
  exact ⟨c2, c3, h1, h2, by omega, h4, h5, h6, hQ c3 h3 h7⟩

theorem Fits.mono {σ : Nat → St V} {x n t w : Nat} {k : Key} {c3 : Nat} (h : Fits σ x n t w k c3) : Fits σ x (n + 1) t w k c3 := by
  rcases h with ⟨h1, h2⟩ | h
  · exact .inl ⟨h1, fun e => (h2 e).mono⟩
  · exact .inr h

theorem Ent.mono {σ : Nat → St V} {x : Nat} {k : Key} {p : BitVec 128} {i n b : Nat} (h : Ent σ x k p i n b) : Ent σ x k p i (n + 1) b :=
  ⟨h.1, h.2.mono⟩

theorem RTrail.mono {σ : Nat → St V} {a0 n x : Nat} {k : Key} {c : RPc V} (h : RTrail σ a0 n k x c) : RTrail σ a0 (n + 1) k x c := by
  have hn : n ≤ n + 1 := Nat.le_succ n
  cases c with
  | idle => exact h
  | stable k' => exact h
  | perm k' v => exact ⟨h.1, h.2.mono⟩
  | ikey k' v p i => exact ⟨h.1, h.2.mono (fun _ _ h => h) hn⟩
  | klx k' v p i => exact ⟨h.1, h.2.mono (fun _ _ h => h.mono) hn⟩
  | ptr k' v p i w => exact ⟨h.1, h.2.mono (fun _ _ h => ⟨h.1.mono, h.2.mono⟩) hn⟩
  | sufKlx k' v p i c => exact ⟨h.1, h.2.1, h.2.2.mono (fun _ _ h => ⟨h.1.mono, h.2.mono hn fun _ _ _ => trivial⟩) hn⟩
  | suf k' v p i c => exact ⟨h.1, h.2.1, h.2.2.mono (fun _ _ h => ⟨h.1.mono, h.2.mono hn fun _ _ _ => trivial⟩) hn⟩
  | check k' v snap =>
    cases snap with
    | none => exact h
    | some q =>
      obtain ⟨h1, p, i, h2⟩ := h
      exact ⟨h1, p, i, h2.mono (fun b _ h => ⟨h.1.mono, h.2.mono hn fun _ _ h => h.mono⟩) hn⟩
  | dirty k' => exact h
  | done k' r => exact ⟨h.1, h.2.mono⟩

theorem Trail.mono {σ : Nat → St V} {a0 n : Nat} {k : Key} {c : CPc V} (h : Trail σ a0 n k c) : Trail σ a0 (n + 1) k c := by
  cases c with
  | idle => exact h
  | leaf x c => exact RTrail.mono h
  | adv1 => exact h
  | adv2 => exact ⟨h.1, h.2.mono⟩
  | adv3 => exact ⟨h.1, h.2.mono⟩
  | adv4 => exact h
  | adv5 => exact ⟨h.1, h.2.mono⟩
  | adv6 => exact ⟨h.1, h.2.mono⟩
  | next => exact h
  | bound => exact h
  | done => exact ⟨h.1, h.2.imp id Found.mono⟩

theorem calm_froz {h : HPc} (hc : Calm h) : h.froz = none := (new_none (calm_new hc)).1

/-- A published slot of a leaf that is not being split. -/
theorem slot_state {s : St V} (hcv : ConvOk s) (T : Tidy s) {x t : Nat} (hfz : (s.hold x).froz = none) (hin : In (s.leaf x).b.perm t) :
    (∃ lv q st, s.hold x = .conv lv t q st ∧ ConvAt (s.leaf x).b t st) ∨ ((s.hold x).trans ≠ some t ∧ Good (s.leaf x).b t) := by
  by_cases e : (s.hold x).trans = some t
  · obtain ⟨lv, q, st, e⟩ := trans_iff.1 e
    exact .inl ⟨lv, q, st, e, hcv x lv t q st e⟩
  · refine .inr ⟨e, ?_⟩
    obtain ⟨j, hj, ej⟩ := hin
    have := T.good x hfz
    rw [E_perm] at this
    have := this j hj
    rw [ej] at this
    have n := E_ne e
    exact this.to n.2.1.symm n.1.symm n.2.2.symm

/-- A validated search. -/
theorem Exec.validated {f : Bool} {σ : Nat → St V} (h : Exec f σ) {a0 n x : Nat} {v : NV.W} {p : BitVec 128} {i w : Nat}
    {k : Key} {cl : Cell V} (hr : releases σ x n - releases σ x a0 < 2 ^ 19)
    (hz : k.currentLen = 0 → ∀ j, a0 ≤ j → j ≤ n → ¬ InTransit (σ j) k)
    (hc : NV.hasChanged v ((σ n).leaf x).word = false)
    (hw : Watch σ a0 n x v p fun b => Ent σ x k p i n b ∧ PtrRead σ x b n (get 5 p i) w cl (Fits σ x n (get 5 p i) w k)) :
    Found σ a0 n k (interp w cl) := by
  obtain ⟨a, b, h1, h2, h3, h4, h5, rfl, rfl, ⟨hi, c1, c11, c12, e1⟩, ⟨c2, c3, c21, c32, c3n, e2, e3, hnn, h6⟩⟩ := hw
  have hlea := releases_le σ x h1
  obtain ⟨hrel, hcalm⟩ := h.unchanged ((h.inv a).used x h4) h5 (by omega) (by omega) hc
  have hstay := h.stay h4 h5 (by omega) hrel hcalm
  have key : ∀ c c', b ≤ c → c ≤ c' → c' ≤ n → Calm ((σ c).hold x) ∧
      In ((σ c).leaf x).b.perm (get 5 ((σ b).leaf x).b.perm i) ∧
      Stay ((σ c).hold x) ((σ c).leaf x).b ((σ c').hold x) ((σ c').leaf x).b := by
    intro c c' hc1 hc2 hc3
    have hm1 := releases_le σ x (show a ≤ c by omega)
    have hm2 := releases_le σ x hc2
    have hm3 := releases_le σ x hc3
    have k1 := (hstay c' (by omega) hc3).1
    have k3 := h.stay h4 h5 (n := c') (by omega) (by omega) k1
    have k4 := (k3 c (by omega) hc2).1
    have k5 := (h.stay h4 h5 (n := c) (by omega) (by omega) k4 b h2 hc1).2
    exact ⟨k4, (k5 _ ⟨i, hi, rfl⟩).1, (k3 c (by omega) hc2).2⟩
  generalize get 5 ((σ b).leaf x).b.perm i = t at key e1 e2 e3 h6
  have hik : ∀ c, b ≤ c → c ≤ n → ((σ c).leaf x).b.ikey t = k.ikey := by
    intro c hc1 hc2
    obtain ⟨_, q1, q2⟩ := key c n hc1 hc2 (Nat.le_refl n)
    obtain ⟨_, p1, p2⟩ := key c1 n c11 c12 (Nat.le_refl n)
    rw [← (q2 t q1).2.1, (p2 t p1).2.1]; exact e1
  obtain ⟨kc3, kin3, -⟩ := key c3 n (by omega) c3n (Nat.le_refl n)
  have hfz3 := calm_froz kc3
  obtain ⟨kc2, kin2, kst⟩ := key c2 c3 c21 c32 c3n
  obtain ⟨-, -, s3, s4, -, s6⟩ := kst t kin2
  have hik3 := hik c3 (by omega) c3n
  have done : ∀ r, shown ((σ c3).leaf x).b t k = some r → Found σ a0 n k r := by
    intro r hr
    obtain ⟨j, hj, ej⟩ := kin3
    exact ⟨c3, by omega, c3n, x, j, h.live_mono h4 (by omega), not_frozen ((h.inv c3).thawed x hfz3), hj, by rw [ej]; exact hr⟩
  have st3 := slot_state (h.convOk c3) (h.tidy c3) hfz3 kin3
  have st3 : ((σ c3).hold x).trans ≠ some t ∧ Good ((σ c3).leaf x).b t := by
    rcases st3 with ⟨_, _, _, _, hca⟩ | st3
    · exact absurd (e3.symm.trans hca.cell) hnn
    · exact st3
  have h128 : layerKeylenx = 128 := rfl
  have h64 : ksufKeylenx = 64 := rfl
  rcases h6 with ⟨hw, hs⟩ | ⟨hw, hsuf⟩
  · by_cases hsuf : k.hasSuffix = true
    · have hw64 : w = ksufKeylenx := by rw [hw]; unfold searchKlx; rw [if_pos hsuf]
      obtain ⟨c4, c41, c42, e4⟩ := hs hw64
      obtain ⟨-, -, kst4⟩ := key c3 c4 (by omega) c41 c42
      have hks := (kst4 t kin3).2.2.2.2.1 _ e4
      rcases st3.2 with ⟨⟨u, hu⟩, hk⟩ | ⟨_, _, hno⟩
      · have hkl := (s3 ⟨st3.1, u, hu⟩).2
        have hsl : SlotIs ((σ c3).leaf x).b t k := by
          refine ⟨hik3, ?_⟩
          rw [if_pos hsuf]
          exact ⟨by rw [hkl, e2, hw64]; rfl, hks⟩
        have hcl : cl = .val u := by rw [← e3]; exact hu
        have : interp w cl = .value u := by rw [hcl]; unfold interp; rw [if_neg (by omega)]
        rw [this]; exact done _ (shown_val hu hsl)
      · rw [hno] at hks; cases hks
    · have hsf : k.hasSuffix = false := by simpa using hsuf
      have h8 : k.currentLen ≤ 8 := by unfold Key.hasSuffix at hsf; have := of_decide_eq_false hsf; have e8 : ikeySize = 8 := rfl; omega
      have hwl : w = k.currentLen := by rw [hw]; unfold searchKlx; rw [if_neg hsuf]
      have hv2 : Valued ((σ c2).hold x) ((σ c2).leaf x).b t := by
        rcases slot_state (h.convOk c2) (h.tidy c2) (calm_froz kc2) kin2 with ⟨lv, q, st, he, hca⟩ | ⟨ht, hg⟩
        · exfalso
          have hk := hca.klx
          have : k.currentLen = 0 := by
            rw [e2, hwl] at hk
            split at hk
            · omega
            · split at hk <;> omega
          exact hz this c2 (by omega) (by omega) ⟨x, lv, t, q, st, he, hik c2 c21 (by omega)⟩
        · rcases hg with ⟨hv, _⟩ | ⟨_, hk, _⟩
          · exact ⟨ht, hv⟩
          · omega
      obtain ⟨⟨_, u, hu⟩, hkl⟩ := s6 hv2 (by omega)
      have hsl : SlotIs ((σ c3).leaf x).b t k := by
        refine ⟨hik3, ?_⟩
        rw [if_neg hsuf, hkl, e2, hwl]
      have hcl : cl = .val u := by rw [← e3]; exact hu
      have : interp w cl = .value u := by rw [hcl]; unfold interp; rw [if_neg (by omega)]
      rw [this]; exact done _ (shown_val hu hsl)
  · have hk3 := s4 (by omega)
    rcases st3.2 with ⟨_, hk⟩ | ⟨⟨q, hq⟩, _⟩
    · omega
    · have hcl : cl = .layer q := by rw [← e3]; exact hq
      have : interp w cl = .descend q := by rw [hcl]; unfold interp; rw [if_pos hw]
      rw [this]; exact done _ (shown_layer hq ⟨hik3, hk3, hsuf⟩)

theorem Trail.step {f : Bool} {σ : Nat → St V} (h : Exec f σ) {a0 n i : Nat} (hn : a0 ≤ n) {k : Key}
    (hr : ∀ x, releases σ x n - releases σ x a0 < 2 ^ 19) (hz : k.currentLen = 0 → ∀ j, a0 ≤ j → j ≤ n → ¬ InTransit (σ j) k)
    (ht : Trail σ a0 n k ((σ n).rd i)) :
    Trail σ a0 n k (cstep f (σ n).leaf ((σ n).rd i)) := by
  have hi := h.inv n
  have hpl := h.placed i n
  have seen : ∀ x, (σ n).live x = true → NV.isDirty ((σ n).leaf x).word = false → Seen σ a0 n x ((σ n).leaf x).word :=
    fun x h1 h2 => ⟨n, hn, Nat.le_refl _, h1, hi.free_of_clean h2, rfl⟩
  have hadv : ∀ x0 x k' ver, k' = k → Seen σ a0 n x ver → Trail σ a0 n k (advRet x0 x k' ver) := by
    intro x0 x k' ver hk hs
    unfold advRet
    split
    · rename_i e; subst e; exact ⟨hk, hs⟩
    · exact hk
  have clean : ∀ x, ¬ NV.isDirty ((σ n).leaf x).word = true → NV.isDirty ((σ n).leaf x).word = false := fun x hd => by simpa using hd
  revert ht hpl
  generalize (σ n).rd i = c
  intro ht hpl
  cases c with
  | idle => exact ht
  | done => exact ht
  | adv1 x k' v =>
    show Trail σ a0 n k (if _ then _ else _)
    split
    · exact ht
    · rename_i hd; exact ⟨ht, seen x hpl.1 (clean x hd)⟩
  | adv2 x k' v w =>
    show Trail σ a0 n k (if _ then _ else _)
    split
    · exact ht.1
    · exact ht
  | adv3 x k' w =>
    show Trail σ a0 n k (if _ then _ else _)
    split
    · exact ht.1
    · exact hadv _ _ _ _ ht.1 ht.2
  | adv4 x0 x k' =>
    show Trail σ a0 n k (if _ then _ else _)
    split
    · exact ht
    · rename_i hd; exact ⟨ht, seen x hpl.2.1 (clean x hd)⟩
  | adv5 x0 x k' w =>
    show Trail σ a0 n k (if _ then _ else if _ then _ else _)
    split
    · exact ht
    · split
      · exact hadv _ _ _ _ ht.1 ht.2
      · exact ht
  | adv6 x0 x k' w z =>
    show Trail σ a0 n k (if _ then _ else _)
    split
    · exact ht.1
    · exact hadv _ _ _ _ ht.1 ht.2
  | next x k' =>
    show Trail σ a0 n k (if _ then (if f then _ else _) else if _ then _ else _)
    split
    · split
      · exact ht
      · exact ⟨ht, .inl rfl⟩
    · split
      · exact ⟨ht, .inl rfl⟩
      · exact ht
  | bound x k' z =>
    show Trail σ a0 n k (if _ then _ else _)
    split
    · exact ht
    · exact ⟨ht, .inl rfl⟩
  | leaf x c =>
    have now : ∀ (P : Leaf V → Prop) b, b ≤ n → P ((σ n).leaf x).b → Evt σ x b n P := fun P b hb hp => ⟨n, hb, Nat.le_refl _, hp⟩
    have le := Nat.le_refl n
    cases c with
    | idle => exact ht
    | done k' r => exact ⟨ht.1, .inr ht.2⟩
    | stable k' =>
      show RTrail σ a0 n k x (if _ then _ else _)
      split
      · exact ht
      · rename_i hd; exact ⟨ht, seen x (hpl k' rfl).1 (clean x hd)⟩
    | perm k' v =>
      show Trail σ a0 n k (if _ then _ else _)
      split
      · exact ht.1
      · obtain ⟨h0, a, h1, h2, h3, h4, h5⟩ := ht
        exact ⟨h0, a, n, h1, h2, le, h3, h4, h5, rfl, trivial⟩
    | ikey k' v p j =>
      show RTrail σ a0 n k x (if _ then (if _ then _ else _) else _)
      split
      · rename_i hlt
        split
        · rename_i e
          refine ⟨ht.1, ht.2.mono (fun b hb _ => ⟨hlt, now _ b hb ?_⟩) le⟩
          rw [e, ht.1]
        · exact ht
      · exact ht.1
    | klx k' v p j =>
      exact ⟨ht.1, ht.2.mono (fun b hb h => ⟨h, now _ b hb rfl⟩) le⟩
    | ptr k' v p j w =>
      have hgo : ((σ n).leaf x).b.cell (get 5 p j) ≠ .null → RTrail σ a0 n k x (if w = searchKlx k' then
          if w = ksufKeylenx then .sufKlx k' v p j (((σ n).leaf x).b.cell (get 5 p j))
          else .check k' v (some (w, ((σ n).leaf x).b.cell (get 5 p j)))
        else if layerKeylenx ≤ w ∧ k'.hasSuffix then .check k' v (some (w, ((σ n).leaf x).b.cell (get 5 p j)))
        else .ikey k' v p (j + 1)) := by
        intro hnn
        obtain ⟨rfl, hw⟩ := ht
        have read : ∀ b (Q : Nat → Prop), (Evt σ x b n fun l => l.klx (get 5 p j) = w) → Q n →
            PtrRead σ x b n (get 5 p j) w (((σ n).leaf x).b.cell (get 5 p j)) Q := by
          rintro b Q ⟨c, h1, h2, h3⟩ hQ
          exact ⟨c, n, h1, h2, le, h3, rfl, hnn, hQ⟩
        split
        · rename_i e
          split
          · rename_i e64
            refine ⟨rfl, by rw [← e]; exact e64, hw.mono (fun b hb h => ⟨h.1, ?_⟩) le⟩
            rw [← e64]; exact read b _ h.2 trivial
          · rename_i e64
            exact ⟨rfl, p, j, hw.mono (fun b hb h => ⟨h.1, read b _ h.2 (.inl ⟨e, fun e' => absurd e' e64⟩)⟩) le⟩
        · split
          · rename_i e
            exact ⟨rfl, p, j, hw.mono (fun b hb h => ⟨h.1, read b _ h.2 (.inr e)⟩) le⟩
          · exact ⟨rfl, hw.mono (fun _ _ _ => trivial) le⟩
      show RTrail σ a0 n k x (match ((σ n).leaf x).b.cell (get 5 p j) with
        | .null => .ikey k' v p (j + 1)
        | c => if w = searchKlx k' then (if w = ksufKeylenx then .sufKlx k' v p j c else .check k' v (some (w, c)))
          else if layerKeylenx ≤ w ∧ k'.hasSuffix then .check k' v (some (w, c)) else .ikey k' v p (j + 1))
      cases hc : ((σ n).leaf x).b.cell (get 5 p j) with
      | null => exact ⟨ht.1, ht.2.mono (fun _ _ _ => trivial) le⟩
      | val u => rw [hc] at hgo; exact hgo (by simp)
      | layer q => rw [hc] at hgo; exact hgo (by simp)
    | sufKlx k' v p j c =>
      show RTrail σ a0 n k x (if _ then _ else _)
      split
      · exact ht
      · exact ⟨ht.1, ht.2.2.mono (fun _ _ _ => trivial) le⟩
    | suf k' v p j c =>
      show RTrail σ a0 n k x (if _ then _ else _)
      obtain ⟨rfl, h0, hw⟩ := ht
      split
      · rename_i e
        exact ⟨rfl, p, j, hw.mono (fun b hb h => ⟨h.1, h.2.mono le fun c hc _ => .inl ⟨h0.symm, fun _ => now _ c hc e⟩⟩) le⟩
      · exact ⟨rfl, hw.mono (fun _ _ _ => trivial) le⟩
    | check k' v snap =>
      show Trail σ a0 n k (if _ then _ else .leaf x (if _ then _ else _))
      split
      · cases snap with
        | none => exact ht
        | some q => exact ht.1
      · rename_i hc
        cases snap with
        | none => exact ht
        | some q =>
          obtain ⟨rfl, p, j, hw⟩ := ht
          exact ⟨rfl, h.validated (hr x) hz (by simpa using hc) hw⟩
    | dirty k' =>
      show Trail σ a0 n k (if _ then _ else _)
      split
      · exact ht
      · exact ht

/-- What a lookup has read at its end. -/
theorem Exec.trail {f : Bool} {σ : Nat → St V} (h : Exec f σ) {i a b : Nat} {k : Key} {r : Out V} {saw : Bool}
    (hl : Lookup σ i a b k r saw) (hr : ∀ x, releases σ x b - releases σ x a < 2 ^ 19)
    (hz : k.currentLen = 0 → ∀ j, a ≤ j → j ≤ b → ¬ InTransit (σ j) k) {n : Nat} (h1 : a ≤ n) (h2 : n ≤ b) :
    Trail σ a n k ((σ n).rd i) := by
  induction h1 with
  | refl =>
    obtain ⟨x, e⟩ := hl.begins
    rw [e]; exact rfl
  | step hm ih =>
    rename_i m
    have hm : a ≤ m := hm
    have h2 : m + 1 ≤ b := h2
    have ht := ih (by omega)
    have hid : (σ m).rd i ≠ .idle := by intro e; rw [e] at ht; exact ht
    have hbusy := hl.busy m hm (by omega)
    have hrm : ∀ x, releases σ x m - releases σ x a < 2 ^ 19 := by
      intro x
      have := hr x
      have := releases_le σ x (show m ≤ b by omega)
      omega
    show Trail σ a (m + 1) k ((σ (m + 1)).rd i)
    rcases h.2 m with e | ⟨c, e⟩
    · rw [e]; exact ht.mono
    · rw [e]
      rcases rd_busy (f := f) (a := c) hid hbusy with e1 | e1
      · rw [e1]; exact ht.mono
      · rw [e1]; exact (Trail.step h hm hrm (fun e j h1 h2 => hz e j h1 (by omega)) ht).mono

/-- A step that gives `k` a value leaves it in a leaf. -/
theorem holds_written {s : St V} (I : Inv s) {f : Bool} {a : Act V} {k : Key} {r : Out V} (hcv : ConvOk s)
    (h : written s k a = some r) : Holds (act f s a) k r := by
  cases a <;> unfold written at h <;> simp only at h <;> try cases h
  case update x t v' =>
    unfold act; simp only
    cases e : s.hold x with
    | locked lv =>
      cases e' : (s.leaf x).b.cell t with
      | val w =>
        rw [e, e'] at h
        simp only at h ⊢
        split at h
        · rename_i hc
          cases h
          have hl := I.own x (by rw [e]; simp) (by rw [e]; simp)
          have hfz : (s.hold x).froz = none := by rw [e]; rfl
          have hi : In (s.leaf x).b.perm t := by
            by_contra hh
            rw [(freeSlot_iff _ _).2 hh] at hc; cases hc.1
          obtain ⟨j, hj, ej⟩ := hi
          refine ⟨x, j, hl, ?_, ?_, ?_⟩
          · show Freeze.isFrozen (upd s.leaf x _ x).b.perm = false
            rw [upd_same]; exact not_frozen (I.thawed x hfz)
          · show j < size 5 (upd s.leaf x _ x).b.perm
            rw [upd_same]; exact hj
          · show shown (upd s.leaf x _ x).b (get 5 (upd s.leaf x _ x).b.perm j) k = _
            rw [upd_same]
            show shown _ (get 5 (s.leaf x).b.perm j) k = _
            rw [ej]; exact shown_val (upd_same _ _ _) hc.2
        · cases h
      | null => rw [e, e'] at h; cases h
      | layer q => rw [e, e'] at h; cases h
    | _ => rw [e] at h; cases h
  case publish x pos off =>
    unfold act; simp only
    cases e : s.hold x with
    | locked lv =>
      rw [e] at h
      simp only at h ⊢
      split at h
      · rename_i hc
        rw [if_pos hc.1]
        have hl := I.own x (by rw [e]; simp) (by rw [e]; simp)
        have hfz : (s.hold x).froz = none := by rw [e]; rfl
        have hy : (⟨⟨0, 0⟩, 0#32, (s.leaf x).b.perm, pos, off⟩ : Try).Ok := ⟨I.thawed x hfz, hc.1.1, hc.1.2.1⟩
        have hok := hy.newPerm
        obtain ⟨j, hj, ej⟩ := (in_newPerm hy _).2 (.inr rfl)
        have hv : ∃ v, (s.leaf x).b.cell (⟨⟨0, 0⟩, 0#32, (s.leaf x).b.perm, pos, off⟩ : Try).slot = .val v ∧ r = .value v := by
          split at h
          · rename_i e'; cases h; exact ⟨_, e', rfl⟩
          · cases h
        obtain ⟨v, hv, rfl⟩ := hv
        refine ⟨x, j, hl, ?_, ?_, ?_⟩
        · show Freeze.isFrozen (upd s.leaf x _ x).b.perm = false
          rw [upd_same]; exact not_frozen hok
        · show j < size 5 (upd s.leaf x _ x).b.perm
          rw [upd_same]; exact hj
        · show shown (upd s.leaf x _ x).b (get 5 (upd s.leaf x _ x).b.perm j) k = _
          rw [upd_same]
          show shown (s.leaf x).b (get 5 (Try.newPerm _) j) k = _
          rw [ej]; exact shown_val hv hc.2
      · cases h
    | _ => rw [e] at h; cases h
  case hold x =>
    split at h
    · rename_i lv t q st e
      split at h
      · rename_i hc
        cases h
        obtain ⟨rfl, hik, hsuf⟩ := hc
        have hca := hcv x lv t q 4 e
        have hl := I.own x (by rw [e]; simp) (by rw [e]; simp)
        have hfz : (s.hold x).froz = none := by rw [e]; rfl
        have h2 : act f s (.hold x) = { s with leaf := upd s.leaf x { s.leaf x with b := convStore (s.leaf x).b t q 4 }, hold := upd s.hold x (convNext lv t q 4) } := by
          show Chain.hstep s x = _
          unfold Chain.hstep; simp only [e]
        rw [h2]
        have hb : convStore (s.leaf x).b t q 4 = { (s.leaf x).b with cell := upd (s.leaf x).b.cell t (.layer q) } := rfl
        obtain ⟨j, hj, ej⟩ := hca.pub
        refine ⟨x, j, hl, ?_, ?_, ?_⟩
        · show Freeze.isFrozen (upd s.leaf x _ x).b.perm = false
          rw [upd_same, hb]; exact not_frozen (I.thawed x hfz)
        · show j < size 5 (upd s.leaf x _ x).b.perm
          rw [upd_same, hb]; exact hj
        · show shown (upd s.leaf x _ x).b (get 5 (upd s.leaf x _ x).b.perm j) k = _
          rw [upd_same, hb]
          show shown _ (get 5 (s.leaf x).b.perm j) k = _
          rw [ej]
          refine shown_layer (upd_same _ _ _) ⟨hik, ?_, hsuf⟩
          have := hca.klx
          show 128 ≤ (s.leaf x).b.klx t
          rw [this]; decide
      · cases h
    · cases h

/-- A key that is in the map has been in a leaf. -/
theorem Exec.was_present {f : Bool} {σ : Nat → St V} (h : Exec f σ) {α : Nat → Option (Act V)} (hα : Steps f σ α) {k : Key}
    {n : Nat} {r : Out V} (hc : Chain.contents σ α k n = r) (hr : r ≠ .absent) : ∃ p, p ≤ n ∧ Holds (σ p) k r := by
  induction n with
  | zero =>
    refine ⟨0, Nat.le_refl 0, ?_⟩
    have hc : leafSays ((σ 0).leaf 1).b k = r := hc
    unfold leafSays at hc
    cases e : (List.range (size 5 ((σ 0).leaf 1).b.perm)).findSome? fun j => shown ((σ 0).leaf 1).b (get 5 ((σ 0).leaf 1).b.perm j) k with
    | none => rw [e] at hc; exact absurd hc.symm hr
    | some r' =>
      rw [e] at hc
      cases hc
      obtain ⟨i, hi, hi'⟩ := List.exists_of_findSome?_eq_some e
      rw [List.mem_range] at hi
      exact ⟨1, i, (h.1.live 1).2 rfl, not_frozen h.1.perm, hi, hi'⟩
  | succ n ih =>
    unfold Chain.contents at hc
    have hs := hα n
    cases e : α n with
    | none =>
      rw [e] at hc
      obtain ⟨p, h1, h2⟩ := ih hc
      exact ⟨p, by omega, h2⟩
    | some a =>
      rw [e] at hc hs
      have hc : (match written (σ n) k a with | some r => r | none => Chain.contents σ α k n) = r := hc
      cases ew : written (σ n) k a with
      | none =>
        rw [ew] at hc
        obtain ⟨p, h1, h2⟩ := ih hc
        exact ⟨p, by omega, h2⟩
      | some u =>
        rw [ew] at hc; cases hc
        exact ⟨n + 1, Nat.le_refl _, by rw [hs]; exact holds_written (h.inv n) (h.convOk n) ew⟩

end Verif.Chain
