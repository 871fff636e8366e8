import Verif.Proof.ChainRaceRead
set_option linter.unusedSimpArgs false
set_option linter.unusedVariables false
/-!
# Lookups while leaves are split (C31)
-/
namespace Verif.Chain
open Verif.Internode (upd upd_same upd_ne)
open Verif.Perm (size get)
open Verif.Tree (Leaf Cell PermOK permOK_initial size_initial)
open Verif.Race (SlotIs SlotLeads RPc Out)
open Verif.Cas (In freeze_frozen not_frozen)
variable {V : Type}

/-- A layer that is one leaf, number 1, with nobody at work: an empty tree, or a sublayer as it is made by
`create_layer_concurrent_generic` (generic.rs:2187-2316), which holds two keys or leads to a further sublayer. -/
structure Start (s : St V) : Prop where
  perm : PermOK (s.leaf 1).b.perm
  sorted : ∀ i j, i < j → j < size 5 (s.leaf 1).b.perm →
    (s.leaf 1).b.ikey (get 5 (s.leaf 1).b.perm i) ≤ (s.leaf 1).b.ikey (get 5 (s.leaf 1).b.perm j)
  slots : ∀ j, j < size 5 (s.leaf 1).b.perm → Good (s.leaf 1).b (get 5 (s.leaf 1).b.perm j)
  apart : ∀ i j, i < j → j < size 5 (s.leaf 1).b.perm →
    ¬ Twin (s.leaf 1).b (get 5 (s.leaf 1).b.perm i) (s.leaf 1).b (get 5 (s.leaf 1).b.perm j)
  next : (s.leaf 1).nx = 0
  low : (s.leaf 1).lo = 0
  live : ∀ x, s.live x = true ↔ x = 1
  used : ∀ x, s.used x = true ↔ x = 1
  hold : ∀ x, s.hold x = .free
  perms : ∀ x, x ≠ 1 → (s.leaf x).b.perm = Verif.Perm.initial 128 5 24
  idle : ∀ i, s.rd i = .idle
  word : (s.leaf 1).word = NV.new true ∨ (s.leaf 1).word = NV.markRoot (NV.new true)
  mark : (s.leaf 1).mark = false

/-- An execution: any interleaving of lookups, inserts and splits.  `fixed` is false for the code as it is. -/
def Exec (fixed : Bool) (σ : Nat → St V) : Prop :=
  Start (σ 0) ∧ ∀ n, σ (n + 1) = σ n ∨ ∃ a, σ (n + 1) = act fixed (σ n) a

/-- Some leaf of the chain that is not being split has a published slot with the key `k` and a value, or one that leads to
the sublayer of `k`. -/
def Present (s : St V) (k : Key) : Prop :=
  ∃ x j, s.live x = true ∧ Freeze.isFrozen (s.leaf x).b.perm = false ∧ j < size 5 (s.leaf x).b.perm ∧
    ((SlotIs (s.leaf x).b (get 5 (s.leaf x).b.perm j) k ∧ ∃ v, (s.leaf x).b.cell (get 5 (s.leaf x).b.perm j) = .val v) ∨
     (SlotLeads (s.leaf x).b (get 5 (s.leaf x).b.perm j) k ∧ ∃ q, (s.leaf x).b.cell (get 5 (s.leaf x).b.perm j) = .layer q))

theorem present_iff {s : St V} {k : Key} : Present s k ↔
    ∃ φ x j, s.live x = true ∧ Freeze.isFrozen (s.leaf x).b.perm = false ∧ j < size 5 (s.leaf x).b.perm ∧
      Has φ (s.leaf x).b (get 5 (s.leaf x).b.perm j) k := by
  constructor
  · rintro ⟨x, j, h1, h2, h3, h | h⟩
    · exact ⟨false, x, j, h1, h2, h3, h⟩
    · exact ⟨true, x, j, h1, h2, h3, h⟩
  · rintro ⟨φ, x, j, h1, h2, h3, h⟩
    cases φ
    · exact ⟨x, j, h1, h2, h3, .inl h⟩
    · exact ⟨x, j, h1, h2, h3, .inr h⟩

theorem Start.inv {s : St V} (h : Start s) : Inv s := by
  have hl1 : s.live 1 = true := (h.live 1).mpr rfl
  have hlx : ∀ x, s.live x = true → x = 1 := fun x => (h.live x).mp
  have hcur : ∀ x, cur (s.leaf x).b (s.hold x) = (s.leaf x).b.perm := by
    intro x; rw [h.hold x, cur_none rfl]
  refine ⟨?_, ?_, ?_, ?_, ?_, ?_, ?_, ?_, ?_, ?_, ?_, ?_, ?_, ?_, ?_, ?_, ?_, ?_, ?_⟩
  · intro x e; exact absurd (h.hold x) e
  · intro x _
    by_cases e : x = 1
    · subst e; exact h.perm
    · rw [h.perms x e]; exact permOK_initial
  · intro x _ _ _ e; rw [h.hold x] at e; cases e
  · intro x _ _ _ e; rw [h.hold x] at e; cases e
  · intro x i j hij hj
    rw [hcur] at hj ⊢
    by_cases e : x = 1
    · subst e; exact h.sorted i j hij hj
    · rw [h.perms x e, size_initial] at hj; omega
  · intro x hx i hi; rw [hlx x hx, h.low]; exact Nat.zero_le _
  · intro x hx h0; rw [hlx x hx] at h0; exact absurd h.next h0
  · intro x hx h0; rw [hlx x hx] at h0; exact absurd h.next h0
  · intro x w hx hw hlt; rw [hlx x hx, hlx w hw] at hlt; omega
  · intro x w hx hw _; rw [hlx x hx, hlx w hw]
  · cases e : s.live 0 with
    | false => rfl
    | true => exact absurd (hlx 0 e) (by omega)
  · intro x hx; rw [hlx x hx]; exact (h.used 1).mpr rfl
  · intro x e; exact absurd (h.hold x) e
  · intro x e; exact absurd (h.hold x) e
  · intro x y e; rw [h.hold x] at e; cases e
  · intro x _ y e; rw [h.hold x] at e; cases e
  · intro x y e; rw [h.hold x] at e; cases e
  · intro x _ _ _ _ _ e; rw [h.hold x] at e; cases e
  · intro x _ _ e; rw [h.hold x] at e; cases e

theorem Exec.inv {f : Bool} {σ : Nat → St V} (h : Exec f σ) (n : Nat) : Inv (σ n) := by
  induction n with
  | zero => exact h.1.inv
  | succ n ih =>
    rcases h.2 n with e | ⟨a, e⟩
    · rw [e]; exact ih
    · rw [e]; exact ih.act f a

theorem Exec.convOk {f : Bool} {σ : Nat → St V} (h : Exec f σ) (n : Nat) : ConvOk (σ n) := by
  induction n with
  | zero => intro x lv t q st e; rw [h.1.hold x] at e; cases e
  | succ n ih =>
    rcases h.2 n with e | ⟨a, e⟩
    · rw [e]; exact ih
    · rw [e]; exact ih.step (cstep_act (h.inv n) f a)

/-- Where the lookups stand. -/
def Placed (s : St V) : CPc V → Prop
  | .leaf x c => ∀ k, rkey c = some k → Place s k x
  | .adv1 x k _ | .adv2 x k _ _ | .adv3 x k _ => Place s k x
  | .adv4 x0 x k | .adv5 x0 x k _ => Place s k x0 ∧ Place s k x
  | .adv6 x0 x k _ z => Place s k x0 ∧ Place s k x ∧ s.live z = true
  | .next x k => Place s k x
  | .bound _ _ z => s.live z = true
  | _ => True

theorem rkey_rstep {b : Leaf V} {w : NV.W} {c : RPc V} {k : Key} (h : rkey (Race.rstep b w c) = some k) : rkey c = some k := by
  cases c <;> simp only [Race.rstep] at h
  case ptr k' v p i x =>
    split at h
    · exact h
    · split at h
      · split at h <;> exact h
      · split at h <;> exact h
  case check k' v snap =>
    split at h
    · exact h
    · split at h <;> exact h
  all_goals
    first
    | exact h
    | (split at h
       · first
         | exact h
         | (split at h <;> exact h)
       · exact h)

theorem Placed.step {f : Bool} {s : St V} (hi : Inv s) {c : CPc V} (h : Placed s c) : Placed s (cstep f s.leaf c) := by
  have hadv : ∀ x0 x k ver, Place s k x0 ∧ Place s k x → Placed s (advRet x0 x k ver) := by
    intro x0 x k ver hp
    unfold advRet
    split
    · intro k' e; cases e; exact hp.1
    · intro k' e; cases e; exact hp.2
  cases c with
  | idle => trivial
  | done k r w => trivial
  | adv1 x k v => show Placed s (if _ then _ else _); split <;> exact h
  | adv2 x k v w =>
    show Placed s (if _ then _ else _)
    split
    · exact ⟨h, h⟩
    · exact h
  | adv3 x k w =>
    show Placed s (if _ then _ else _)
    split
    · exact ⟨h, h⟩
    · exact hadv _ _ _ _ ⟨h, h⟩
  | adv4 x0 x k => show Placed s (if _ then _ else _); split <;> exact h
  | adv5 x0 x k w =>
    show Placed s (if _ then _ else if _ then _ else _)
    split
    · exact h
    · split
      · exact hadv _ _ _ _ h
      · rename_i h0; exact ⟨h.1, h.2, (hi.link x h.2.1 h0).1⟩
  | adv6 x0 x k w z =>
    show Placed s (if _ then _ else _)
    split
    · rename_i hlo; exact ⟨h.1, h.2.2, hlo⟩
    · exact hadv _ _ _ _ ⟨h.1, h.2.1⟩
  | next x k =>
    show Placed s (if _ then (if f then _ else _) else if _ then _ else _)
    split
    · split
      · intro k' e; cases e; exact h
      · trivial
    · split
      · trivial
      · rename_i h0; exact (hi.link x h.1 h0).1
  | bound x k z =>
    show Placed s (if _ then _ else _)
    split
    · rename_i hlo; intro k' e; cases e; exact ⟨h, hlo⟩
    · trivial
  | leaf x c =>
    have hgen : ∀ c', (∀ k, rkey c' = some k → rkey c = some k) → Placed s (.leaf x c') := fun c' hc k e => h k (hc k e)
    cases c with
    | idle => trivial
    | done k r => trivial
    | perm k v =>
      show Placed s (if _ then _ else _)
      split <;> exact hgen _ fun _ e => e
    | check k v snap =>
      show Placed s (if _ then _ else _)
      split
      · exact h k rfl
      · exact hgen _ fun _ e => rkey_rstep e
    | dirty k =>
      show Placed s (if _ then _ else _)
      split
      · exact hgen _ fun _ e => e
      · exact h k rfl
    | stable k => exact hgen _ fun _ e => rkey_rstep e
    | ikey k v p i => exact hgen _ fun _ e => rkey_rstep e
    | klx k v p i => exact hgen _ fun _ e => rkey_rstep e
    | ptr k v p i w => exact hgen _ fun _ e => rkey_rstep e
    | sufKlx k v p i c => exact hgen _ fun _ e => rkey_rstep e
    | suf k v p i c => exact hgen _ fun _ e => rkey_rstep e

/-- Leaves stay in the chain and keep their lower bounds. -/
def Kept (s s' : St V) : Prop := ∀ x, s.live x = true → s'.live x = true ∧ (s'.leaf x).lo = (s.leaf x).lo

theorem Placed.mono {s s' : St V} (e : Kept s s') {c : CPc V} (h : Placed s c) : Placed s' c := by
  have hp : ∀ k x, Place s k x → Place s' k x := fun k x h => ⟨(e x h.1).1, by rw [(e x h.1).2]; exact h.2⟩
  cases c with
  | leaf x c => exact fun k hk => hp _ _ (h k hk)
  | adv1 x k v => exact hp _ _ h
  | adv2 x k v w => exact hp _ _ h
  | adv3 x k w => exact hp _ _ h
  | adv4 x0 x k => exact ⟨hp _ _ h.1, hp _ _ h.2⟩
  | adv5 x0 x k w => exact ⟨hp _ _ h.1, hp _ _ h.2⟩
  | adv6 x0 x k w z => exact ⟨hp _ _ h.1, hp _ _ h.2.1, (e z h.2.2).1⟩
  | next x k => exact hp _ _ h
  | bound x k z => exact (e z h).1
  | idle => trivial
  | done k r w => trivial

theorem Kept.act {s : St V} (h : Inv s) (f : Bool) (a : Act V) : Kept s (act f s a) := by
  have hupd : ∀ (x : Nat) (l : LeafSt V), l.lo = (s.leaf x).lo → ∀ z, (upd s.leaf x l z).lo = (s.leaf z).lo := by
    intro x l e z
    rw [upd_if]; split
    · rename_i ez; rw [ez]; exact e
    · rfl
  have hupd2 : ∀ (x y : Nat) (l l' : LeafSt V), l.lo = (s.leaf x).lo → l'.lo = (s.leaf y).lo →
      ∀ z, (upd (upd s.leaf y l') x l z).lo = (s.leaf z).lo := by
    intro x y l l' e e' z
    rw [upd_if]; split
    · rename_i ez; rw [ez]; exact e
    · exact hupd y l' e' z
  have hrefl : Kept s s := fun x hx => ⟨hx, rfl⟩
  cases a with
  | lock x => unfold Chain.act; simp only; split; exacts [fun z hz => ⟨hz, hupd _ _ (by rfl) z⟩, hrefl]
  | write x t ik kl c sf =>
    unfold Chain.act; simp only; split
    · split; exacts [fun z hz => ⟨hz, hupd _ _ (by rfl) z⟩, hrefl]
    · exact hrefl
  | publish x pos off =>
    unfold Chain.act; simp only; split
    · split; exacts [fun z hz => ⟨hz, hupd _ _ (by rfl) z⟩, hrefl]
    · exact hrefl
  | update x t v => unfold Chain.act; simp only; split; exacts [fun z hz => ⟨hz, hupd _ _ (by rfl) z⟩, hrefl]
  | convert x t q =>
    unfold Chain.act; simp only; split
    · split; exacts [fun z hz => ⟨hz, hupd _ _ (by rfl) z⟩, hrefl]
    · exact hrefl
  | giveUp x => unfold Chain.act; simp only; split; exacts [fun z hz => ⟨hz, rfl⟩, hrefl]
  | markSplit x => unfold Chain.act; simp only; split; exacts [fun z hz => ⟨hz, hupd _ _ (by rfl) z⟩, hrefl]
  | freeze x sp y =>
    unfold Chain.act; simp only; split
    · split
      · rename_i hc
        intro z hz
        refine ⟨hz, ?_⟩
        show (upd (upd s.leaf y _) x _ z).lo = _
        rw [upd_if]; split
        · rename_i ez; rw [ez]
        · have : z ≠ y := by rintro rfl; have := h.used z hz; rw [hc.2.2.2.1] at this; cases this
          rw [upd_ne _ _ _ this]
      · exact hrefl
    · exact hrefl
  | hold x =>
    show Kept s (hstep s x)
    unfold Chain.hstep
    split
    · split; exacts [fun z hz => ⟨hz, hupd2 _ _ _ _ (by rfl) (by rfl) z⟩, fun z hz => ⟨hz, rfl⟩]
    · split; exacts [fun z hz => ⟨hz, hupd _ _ (by rfl) z⟩, fun z hz => ⟨hz, rfl⟩]
    · exact fun z hz => ⟨hz, hupd2 _ _ _ _ (by rfl) (by rfl) z⟩
    · exact fun z hz => ⟨hz, hupd _ _ (by rfl) z⟩
    · exact fun z hz => ⟨hz, hupd _ _ (by rfl) z⟩
    · rename_i lv y _
      intro z hz
      refine ⟨?_, hupd _ _ (by rfl) z⟩
      show upd s.live y true z = true
      rw [upd_if]; split
      · rfl
      · exact hz
    · exact fun z hz => ⟨hz, hupd _ _ (by rfl) z⟩
    · exact fun z hz => ⟨hz, hupd _ _ (by rfl) z⟩
    · exact hrefl
  | release y =>
    unfold Chain.act; simp only; split
    · split; exacts [fun z hz => ⟨hz, hupd _ _ (by rfl) z⟩, hrefl]
    · exact hrefl
  | start i x k =>
    unfold Chain.act; simp only; split
    · split <;> exact hrefl
    · split <;> exact hrefl
    · exact hrefl
  | read i => exact hrefl

/-- The reader after a step: unchanged, started, or moved. -/
theorem rd_act {f : Bool} {s : St V} {a : Act V} {i : Nat} :
    (act f s a).rd i = s.rd i ∨ (act f s a).rd i = cstep f s.leaf (s.rd i) ∨
    ∃ x k, (act f s a).rd i = .leaf x (.stable k) ∧ s.live x = true ∧ (s.leaf x).lo ≤ k.ikey := by
  have hup : ∀ (j : Nat) (c : CPc V), upd s.rd j c i = s.rd i ∨ (j = i ∧ upd s.rd j c i = c) := by
    intro j c
    by_cases e : i = j
    · subst e; exact .inr ⟨rfl, upd_same _ _ _⟩
    · exact .inl (upd_ne _ _ _ e)
  cases a with
  | start j x k =>
    unfold act; simp only
    split
    · split
      · rename_i hc
        rcases hup j (.leaf x (.stable k)) with e | ⟨_, e⟩
        · exact .inl e
        · exact .inr (.inr ⟨x, k, e, hc⟩)
      · exact .inl rfl
    · split
      · rename_i hc
        rcases hup j (.leaf x (.stable k)) with e | ⟨_, e⟩
        · exact .inl e
        · exact .inr (.inr ⟨x, k, e, hc⟩)
      · exact .inl rfl
    · exact .inl rfl
  | read j =>
    rcases hup j (cstep f s.leaf (s.rd j)) with e | ⟨ej, e⟩
    · exact .inl e
    · subst ej; exact .inr (.inl e)
  | hold x =>
    left
    show (hstep s x).rd i = _
    unfold hstep
    split <;> first | rfl | (split <;> rfl)
  | lock x => left; unfold act; simp only; split <;> rfl
  | write x t ik kl c sf => left; unfold act; simp only; split <;> first | rfl | (split <;> rfl)
  | publish x pos off => left; unfold act; simp only; split <;> first | rfl | (split <;> rfl)
  | update x t v => left; unfold act; simp only; split <;> rfl
  | convert x t q => left; unfold act; simp only; split <;> first | rfl | (split <;> rfl)
  | giveUp x => left; unfold act; simp only; split <;> rfl
  | markSplit x => left; unfold act; simp only; split <;> rfl
  | freeze x sp y => left; unfold act; simp only; split <;> first | rfl | (split <;> rfl)
  | release y => left; unfold act; simp only; split <;> first | rfl | (split <;> rfl)

theorem Exec.placed {f : Bool} {σ : Nat → St V} (h : Exec f σ) (i n : Nat) : Placed (σ n) ((σ n).rd i) := by
  induction n with
  | zero => rw [h.1.idle i]; trivial
  | succ n ih =>
    rcases h.2 n with e | ⟨a, e⟩
    · rw [e]; exact ih
    · have hi := h.inv n
      have hk := Kept.act hi f a
      rw [e]
      rcases rd_act (f := f) (s := σ n) (a := a) (i := i) with e1 | e1 | ⟨x, k, e1, h1, h2⟩
      · rw [e1]; exact ih.mono hk
      · rw [e1]; exact (ih.step hi).mono hk
      · rw [e1]
        intro k' ek; cases ek
        exact ⟨(hk x h1).1, by rw [(hk x h1).2]; exact h2⟩

/-- A key that is in a leaf is where every leaf before it leads to. -/
theorem jk_of {s : St V} (hi : Inv s) {k : Key} {φ : Bool} {w j : Nat} (hl : s.live w = true)
    (hf : Freeze.isFrozen (s.leaf w).b.perm = false) (hj : j < size 5 (s.leaf w).b.perm)
    (hb : Has φ (s.leaf w).b (get 5 (s.leaf w).b.perm j) k) : JK φ s k ∧ Place s k w := by
  have hn : (s.hold w).froz = none := by
    cases hz : (s.hold w).froz with
    | none => rfl
    | some q =>
      obtain ⟨raw, sp, y⟩ := q
      rw [(hi.frozen w raw sp y hz).1, freeze_frozen] at hf
      cases hf
  have hcur : cur (s.leaf w).b (s.hold w) = (s.leaf w).b.perm := cur_none hn
  have hlow := hi.low w hl j (by rw [hcur]; exact hj)
  rw [hcur, hb.ikey] at hlow
  refine ⟨?_, hl, hlow⟩
  intro x hx hxk
  by_cases e : x = w
  · subst e
    exact .inl ⟨_, ⟨j, by rw [hcur]; exact hj, by rw [hcur]⟩, hb⟩
  · rcases Nat.lt_trichotomy (s.leaf x).lo (s.leaf w).lo with h1 | h1 | h1
    · have := hi.chain x w hx hl h1
      exact .inr (.inl ⟨this.1, by omega⟩)
    · exact absurd (hi.inj x w hx hl h1) e
    · exfalso
      have h2 := hi.chain w x hl hx h1
      have h3 := hi.high w hl h2.1 j (by rw [hcur]; exact hj)
      rw [hcur, hb.ikey] at h3
      omega

/-- The key is in its place, or its slot is being converted. -/
def Held (s : St V) (k : Key) : Prop := (∃ φ, JK φ s k) ∨ Converting s k

theorem Present.held {s : St V} (hi : Inv s) {k : Key} (h : Present s k) : (∃ φ, JK φ s k) ∧ ∃ w, Place s k w := by
  obtain ⟨φ, x, j, h1, h2, h3, h4⟩ := present_iff.1 h
  have := jk_of hi h1 h2 h3 h4
  exact ⟨⟨φ, this.1⟩, x, this.2⟩

/-- A conversion goes on or is finished. -/
theorem Converting.step {s : St V} (hi : Inv s) (hc : ConvOk s) {k : Key} (h : Converting s k) (f : Bool) (a : Act V) :
    Converting (act f s a) k ∨ Present (act f s a) k := by
  obtain ⟨hk, x, lv, t, q, st, e, ek⟩ := h
  have hs := cstep_act hi f a x
  have hca := hc x lv t q st e
  have hi' := hi.act f a
  have hown := hi'.own x
  have hth := hi'.thawed x
  rw [e] at hs
  generalize e' : (act f s a).hold x = h' at hs hown hth
  generalize eb : ((act f s a).leaf x).b = b' at hs hth
  generalize eb0 : (s.leaf x).b = b at hs hca ek
  cases hs with
  | same => exact .inl ⟨hk, x, lv, t, q, st, e', by rw [eb]; exact ek⟩
  | other => rename_i h1 h2; cases h1
  | next =>
    by_cases hlt : st < 4
    · refine .inl ⟨hk, x, lv, t, q, st + 1, by rw [e']; unfold convNext; rw [if_pos hlt], ?_⟩
      rw [eb, convStore_ikey]; exact ek
    · right
      have hlast := hca.last
      have h4 : st = 4 := by omega
      subst h4
      have hn : convNext lv t q 4 = .locked lv := rfl
      rw [hn] at hown hth
      obtain ⟨j, hj, ej⟩ := hca.pub
      have hkl := hca.klx
      refine ⟨x, j, hown (by simp) (by simp), ?_, ?_, .inr ?_⟩
      · rw [eb]; exact not_frozen (hth rfl)
      · rw [eb]; exact hj
      · rw [eb]
        show SlotLeads (convStore b t q 4) (get 5 b.perm j) k ∧ ∃ q', upd b.cell t (.layer q) (get 5 b.perm j) = .layer q'
        rw [ej]
        exact ⟨⟨ek, by show 128 ≤ b.klx t; rw [hkl]; decide, hk⟩, q, upd_same _ _ _⟩

theorem Held.step {s : St V} (hi : Inv s) (hc : ConvOk s) {k : Key} (h : Held s k) (f : Bool) (a : Act V) :
    Held (act f s a) k := by
  by_cases h1 : Converting s k
  · rcases h1.step hi hc f a with h2 | h2
    · exact .inr h2
    · exact .inl (h2.held (hi.act f a)).1
  · by_cases h2 : Converting (act f s a) k
    · exact .inr h2
    · rcases h with ⟨φ, hj⟩ | h
      · exact .inl ⟨φ, (Eff.act hi hc h1 hj f a h2).jk⟩
      · exact absurd h h1

theorem Exec.held {f : Bool} {σ : Nat → St V} (h : Exec f σ) {p n : Nat} {k : Key} (hp : Held (σ p) k) (hn : p ≤ n) :
    Held (σ n) k := by
  obtain ⟨d, rfl⟩ := Nat.exists_eq_add_of_le hn
  clear hn
  induction d with
  | zero => exact hp
  | succ d ih =>
    rcases h.2 (p + d) with e | ⟨a, e⟩
    · rw [show p + (d + 1) = p + d + 1 from rfl, e]; exact ih
    · rw [show p + (d + 1) = p + d + 1 from rfl, e]; exact ih.step (h.inv _) (h.convOk _) f a

theorem Exec.know {f φ : Bool} {σ : Nat → St V} (h : Exec f σ) {n : Nat} {k : Key} (hp : JK φ (σ n) k) {i : Nat}
    (hk : Know φ f (σ n) k ((σ n).rd i)) (d : Nat) (hno : ∀ j, n ≤ j → j ≤ n + d → ¬ Converting (σ j) k) :
    JK φ (σ (n + d)) k ∧ Know φ f (σ (n + d)) k ((σ (n + d)).rd i) := by
  induction d with
  | zero => exact ⟨hp, hk⟩
  | succ d ih =>
    obtain ⟨hj, hk⟩ := ih fun j h1 h2 => hno j h1 (by omega)
    rcases h.2 (n + d) with e | ⟨a, e⟩
    · rw [show n + (d + 1) = n + d + 1 from rfl, e]; exact ⟨hj, hk⟩
    · have hi := h.inv (n + d)
      have hno' := hno (n + d + 1) (by omega) (by omega)
      rw [e] at hno'
      have heff := Eff.act hi (h.convOk _) (hno (n + d) (by omega) (by omega)) hj f a hno'
      rw [show n + (d + 1) = n + d + 1 from rfl, e]
      refine ⟨heff.jk, ?_⟩
      rcases rd_act (f := f) (s := σ (n + d)) (a := a) (i := i) with e1 | e1 | ⟨x, k', e1, h1, h2⟩
      · rw [e1]; exact hk.mono heff
      · rw [e1]; exact (hk.step hi hj).mono heff
      · rw [e1]
        intro ek; cases ek
        exact ⟨Place.mono heff ⟨h1, h2⟩, trivial⟩

theorem Exec.know_start {f φ : Bool} {σ : Nat → St V} (h : Exec f σ) {n : Nat} {k : Key} {i x : Nat}
    (hr : (σ n).rd i = .leaf x (.stable k)) : Know φ f (σ n) k ((σ n).rd i) := by
  have := h.placed i n
  rw [hr] at this ⊢
  intro _
  exact ⟨this k rfl, trivial⟩

/-- Answers of a lookup that begins when the key is held and that no conversion disturbs. -/
theorem Exec.not_absent {f : Bool} {σ : Nat → St V} (h : Exec f σ) {n m i x : Nat} {k : Key} {w : Bool}
    (hp : Held (σ n) k) (hr : (σ n).rd i = .leaf x (.stable k)) (hm : n ≤ m)
    (hno : ∀ j, n ≤ j → j ≤ m → ¬ Converting (σ j) k) (e : (σ m).rd i = .done k .absent w) : w = true ∧ f = false := by
  obtain ⟨d, rfl⟩ := Nat.exists_eq_add_of_le hm
  rcases hp with ⟨φ, hj⟩ | hc
  · have := (h.know hj (h.know_start hr) d hno).2
    rw [e] at this
    exact this rfl rfl
  · exact absurd hc (hno n (by omega) (by omega))

/-- C31, what the code guarantees: a lookup that begins (at step `n`, in any leaf the key may have been routed to) when the
key is in the layer, or after it was, does not answer "absent", whatever inserts and splits happen meanwhile, unless its
very last load of a next pointer found that pointer marked by a split.  Missing for C31: that exception, which is real, see
`C31_present_key_missed`, and lookups of a long key while another long key's value under the same eight bytes is turned into
a sublayer, which can miss too (`C29_present_key_missed`). -/
theorem C31_present_key_found_partial {σ : Nat → St V} (h : Exec false σ) {p n m i x : Nat} {k : Key}
    (hp : Present (σ p) k) (hn : p ≤ n) (hr : (σ n).rd i = .leaf x (.stable k)) (hm : n ≤ m)
    (hno : ∀ j, n ≤ j → j ≤ m → ¬ Converting (σ j) k) : (σ m).rd i ≠ .done k .absent false := by
  intro e
  have := h.not_absent (h.held (.inl (hp.held (h.inv p)).1) hn) hr hm hno e
  exact absurd this.1 (by simp)

/-- C31 for the repaired lookup, which searches again when it sees a marked next pointer: a key that is in the layer when a
lookup begins is never reported absent, if its value is not just being turned into a sublayer. -/
theorem C31_present_key_found_if_marked_next_retries {σ : Nat → St V} (h : Exec true σ) {p n m i x : Nat} {k : Key} {w : Bool}
    (hp : Present (σ p) k) (hn : p ≤ n) (hr : (σ n).rd i = .leaf x (.stable k)) (hm : n ≤ m)
    (hno : ∀ j, n ≤ j → j ≤ m → ¬ Converting (σ j) k) : (σ m).rd i ≠ .done k .absent w := by
  intro e
  have := h.not_absent (h.held (.inl (hp.held (h.inv p)).1) hn) hr hm hno e
  exact absurd this.2 (by simp)

/-- A key stays in the layer: once present, it is present whenever no writer is at work. -/
theorem C31_key_stays {f : Bool} {σ : Nat → St V} (h : Exec f σ) {n m : Nat} {k : Key} (hp : Present (σ n) k) (hm : n ≤ m)
    (hq : ∀ x, (σ m).hold x = .free) : Present (σ m) k := by
  obtain ⟨d, rfl⟩ := Nat.exists_eq_add_of_le hm
  obtain ⟨hjk0, hw0⟩ := hp.held (h.inv n)
  have hpl : ∀ d, ∃ w, Place (σ (n + d)) k w := by
    intro d
    induction d with
    | zero => exact hw0
    | succ d ih =>
      obtain ⟨w, hw⟩ := ih
      rcases h.2 (n + d) with e | ⟨a, e⟩
      · rw [show n + (d + 1) = n + d + 1 from rfl, e]; exact ⟨w, hw⟩
      · have hk := Kept.act (h.inv (n + d)) f a w hw.1
        rw [show n + (d + 1) = n + d + 1 from rfl, e]
        exact ⟨w, hk.1, by rw [hk.2]; exact hw.2⟩
  obtain ⟨w, hw⟩ := hpl d
  have hi := h.inv (n + d)
  rcases h.held (.inl hjk0) (Nat.le_add_right n d) with ⟨φ, hj⟩ | ⟨_, x, lv, t, q, st, e, _⟩
  swap
  · rw [hq x] at e; cases e
  have walk : ∀ g w, Place (σ (n + d)) k w → k.ikey - ((σ (n + d)).leaf w).lo ≤ g → Present (σ (n + d)) k := by
    intro g
    induction g with
    | zero =>
      intro w hw hg
      rcases hj w hw.1 hw.2 with ⟨t, ⟨j, hj1, e⟩, hs⟩ | hpa | ⟨y, u, hy, _⟩
      · rw [hq w] at hj1 e
        have e : get 5 ((σ (n + d)).leaf w).b.perm j = t := e
        exact present_iff.2 ⟨φ, w, j, hw.1, not_frozen (hi.thawed w (by rw [hq w]; rfl)), hj1, by rw [e]; exact hs⟩
      · have := hi.link w hw.1 hpa.1
        have := hpa.2
        have := hw.2
        omega
      · rw [hq w] at hy; cases hy
    | succ g ih =>
      intro w hw hg
      rcases hj w hw.1 hw.2 with ⟨t, ⟨j, hj1, e⟩, hs⟩ | hpa | ⟨y, u, hy, _⟩
      · rw [hq w] at hj1 e
        have e : get 5 ((σ (n + d)).leaf w).b.perm j = t := e
        exact present_iff.2 ⟨φ, w, j, hw.1, not_frozen (hi.thawed w (by rw [hq w]; rfl)), hj1, by rw [e]; exact hs⟩
      · have h1 := hi.link w hw.1 hpa.1
        have h2 := hpa.2
        have h3 := hw.2
        exact ih _ ⟨h1.1, h2⟩ (by omega)
      · rw [hq w] at hy; cases hy
  exact walk _ w hw (Nat.le_refl _)

/-! ## The violation -/

/-- A list of actions as an execution. -/
def trace (f : Bool) (s : St V) (as : List (Act V)) (n : Nat) : St V := (as.take n).foldl (act f) s

theorem trace_exec (f : Bool) {s : St V} (h : Start s) (as : List (Act V)) : Exec f (trace f s as) := by
  refine ⟨by simpa [trace] using h, ?_⟩
  intro n
  unfold trace
  by_cases hn : n < as.length
  · right
    refine ⟨as[n], ?_⟩
    rw [List.take_succ_eq_append_getElem hn, List.foldl_append]; rfl
  · left
    rw [List.take_of_length_le (by omega), List.take_of_length_le (by omega)]

/-- The empty layer. -/
def emptyChain : St Nat :=
  { leaf := fun _ => ⟨Tree.emptyLeaf, NV.new true, 0, false, 0⟩, hold := fun _ => .free,
    live := fun x => x == 1, used := fun x => x == 1, rd := fun _ => .idle }

theorem emptyChain_start : Start emptyChain :=
  have h0 : size 5 (emptyChain.leaf 1).b.perm = 0 := size_initial
  ⟨permOK_initial, fun _ _ _ h => absurd h (by rw [h0]; omega), fun _ h => absurd h (by rw [h0]; omega),
    fun _ _ _ h => absurd h (by rw [h0]; omega), rfl, rfl, fun x => by simp [emptyChain], fun x => by simp [emptyChain],
    fun _ => rfl, fun _ _ => rfl, fun _ => rfl, .inl rfl, rfl⟩

/-- The 8-byte key whose last byte is `n`. -/
def key (n : UInt8) : Key := Key.mk' [0, 0, 0, 0, 0, 0, 0, n]

/-- Insert keys 1, 2 and 3 into leaf 1. -/
def fill : List (Act Nat) :=
  [.lock 1, .write 1 0 1 8 (.val 10) none, .publish 1 0 0, .write 1 1 2 8 (.val 20) none, .publish 1 1 0,
   .write 1 2 3 8 (.val 30) none, .publish 1 2 0, .giveUp 1, .hold 1]

/-- Split leaf 1 before position 2: key 3 moves to leaf 2. -/
def split1 : List (Act Nat) :=
  [.lock 1, .markSplit 1, .freeze 1 2 2] ++ List.replicate 8 (.hold 1) ++ [.release 2]

/-- Split leaf 1 again, before position 1, up to the point where its next pointer is marked. -/
def split2 : List (Act Nat) := [.lock 1, .markSplit 1, .freeze 1 1 3] ++ List.replicate 5 (.hold 1)

/-- A lookup of key 3 that was routed to leaf 1, and which has found nothing there. -/
def look : List (Act Nat) := [.start 0 1 (key 3)] ++ List.replicate 7 (.read 0)

def missed : List (Act Nat) := fill ++ split1 ++ look ++ split2 ++ [.read 0]

/-- Key 3 is in slot 0 of leaf 2. -/
def has3 (s : St Nat) : Bool :=
  decide (s.live 2 = true ∧ Freeze.isFrozen (s.leaf 2).b.perm = false ∧ 0 < size 5 (s.leaf 2).b.perm ∧
    (s.leaf 2).b.ikey (get 5 (s.leaf 2).b.perm 0) = (key 3).ikey ∧ (s.leaf 2).b.klx (get 5 (s.leaf 2).b.perm 0) = 8 ∧
    (s.leaf 2).b.cell (get 5 (s.leaf 2).b.perm 0) = .val 30)

theorem has3_present {s : St Nat} (h : has3 s = true) : Present s (key 3) := by
  obtain ⟨h1, h2, h3, h4, h5, h6⟩ := of_decide_eq_true h
  refine ⟨2, 0, h1, h2, h3, .inl ⟨⟨h4, ?_⟩, 30, h6⟩⟩
  have : (key 3).hasSuffix = false := by decide +kernel
  rw [this]
  have h8 : (key 3).currentLen = 8 := by decide +kernel
  rw [h8]; exact h5

/-- C31 does not hold of the code.  A key is in the layer during the whole of a lookup, and the lookup answers "absent":
the leaf it was routed to had been split before, so that the key is in the right sibling; when the lookup has found nothing
in the leaf and seen that no writer is at work, a second split of the same leaf begins and marks its next pointer; the
lookup takes a marked pointer for no pointer and returns `None` (generic.rs:787-790). -/
theorem C31_present_key_missed :
    ∃ (σ : Nat → St Nat) (k : Key) (n m x : Nat), Exec false σ ∧ n < m ∧ (σ n).rd 0 = .leaf x (.stable k) ∧
      (∀ j, n ≤ j → j ≤ m → Present (σ j) k) ∧ (σ m).rd 0 = .done k .absent true := by
  refine ⟨trace false emptyChain missed, key 3, 22, 38, 1, trace_exec false emptyChain_start _, by omega, ?_, ?_, ?_⟩
  · decide +kernel
  · have : ∀ j, j < 39 → 22 ≤ j → has3 (trace false emptyChain missed j) = true := by decide +kernel
    exact fun j h1 h2 => has3_present (this j (by omega) h1)
  · decide +kernel

/-- The hypotheses of the theorems above are met, and the lookup then succeeds: the same lookup without the second split
follows the next pointer and finds the key; so does the repaired one with it, once the split is over. -/
theorem C31_witness :
    (let σ := trace false emptyChain (fill ++ split1 ++ look ++ List.replicate 20 (.read 0))
     Exec false σ ∧ Present (σ 22) (key 3) ∧ (σ 22).rd 0 = .leaf 1 (.stable (key 3)) ∧
       (σ 49).rd 0 = .done (key 3) (.value 30) false) ∧
    (let σ := trace true emptyChain (missed ++ List.replicate 3 (.hold 1) ++ [.release 3] ++ List.replicate 30 (.read 0))
     Exec true σ ∧ Present (σ 22) (key 3) ∧ (σ 22).rd 0 = .leaf 1 (.stable (key 3)) ∧
       (σ 72).rd 0 = .done (key 3) (.value 30) false) := by
  refine ⟨⟨trace_exec false emptyChain_start _, has3_present (by decide +kernel), by decide +kernel, by decide +kernel⟩,
    ⟨trace_exec true emptyChain_start _, has3_present (by decide +kernel), by decide +kernel, by decide +kernel⟩⟩

end Verif.Chain
