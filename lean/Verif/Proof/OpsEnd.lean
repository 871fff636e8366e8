import Verif.Proof.OpsQuiet
set_option linter.unusedSimpArgs false
set_option linter.unusedVariables false
/-! The way of a lookup through a tree that nobody changes. -/
namespace Verif.Ops
open Verif.Internode (upd upd_same upd_ne)
open Verif.Spec (Bytes)
open Verif.Perm (size get)
open Verif.Index (Al)
open Verif.Whole (Inside isLocked Frame WOk LAct onLeaves beside raw lact onForest inIndex LOk)
variable {V : Type} {fixed strict : Bool}

/-- Where a lookup is. -/
inductive Pos (V : Type) where
  | enter (L m : Nat)
  | down (L m : Nat) (p : Index.Pc Unit)
  | read (L m : Nat) (c : Chain.CPc V)
  | over
  | stuck

/-- What comes after the answer of a layer. -/
def Pos.out (m : Nat) : Race.Out V → Pos V
  | .value _ => .over
  | .absent => .over
  | .descend q => .enter q (m + 1)
  | .misread => .stuck

/-- The next step of a lookup of `d` in the tree `w`. -/
def pace (fixed strict : Bool) (w : Whole.St V) (d : Bytes) : Pos V → Pos V
  | .enter L m => .down L m (.climb (.get (kat d m).ikey) (w.side L).ix.heap.root)
  | .down L m (.look _ l) => .read L m (.leaf ((w.side L).leaf l) (.stable (kat d m)))
  | .down L m p => .down L m (Index.step strict (L == 0) (w.side L).ix.heap p).2
  | .read _ m (.done _ r _) => .out m r
  | .read L m c => .read L m (Chain.cstep fixed (w.f.layer L).leaf c)
  | .over => .over
  | .stuck => .stuck

/-- The lookup is in a layer that can be used, and on its way. -/
def Pos.ok (w : Whole.St V) : Pos V → Prop
  | .enter L _ => w.f.up L = true
  | .down L _ p => w.f.up L = true ∧ (inIndex p = true ∨ ∃ o l, p = .look o l)
  | .read L _ _ => w.f.up L = true
  | _ => True

/-- The lookup is over after `k` steps. -/
inductive Ends (fixed strict : Bool) (w : Whole.St V) (d : Bytes) : Nat → Pos V → Prop
  | over : Ends fixed strict w d 0 .over
  | step {k : Nat} {p : Pos V} (h : p.ok w) (h' : Ends fixed strict w d k (pace fixed strict w d p)) : Ends fixed strict w d (k + 1) p

/-- Some number of steps. -/
def End (fixed strict : Bool) (w : Whole.St V) (d : Bytes) (p : Pos V) : Prop := ∃ k, Ends fixed strict w d k p

theorem End.step {w : Whole.St V} {d : Bytes} {p : Pos V} (h : p.ok w) (h' : End fixed strict w d (pace fixed strict w d p)) : End fixed strict w d p := by
  obtain ⟨k, h'⟩ := h'
  exact ⟨k + 1, .step h h'⟩

/-- Nothing is locked in layer `L`. -/
structure Rest (w : Whole.St V) (L : Nat) : Prop where
  up : w.f.up L = true
  node : ∀ q, Al (w.side L).ix.heap q → ((w.side L).ix.heap.node q).locked = false
  arr : ∀ q, Al (w.side L).ix.heap q → ((w.side L).ix.heap.node q).arr = ((w.side L).ix.heap.node q).base
  hold : ∀ x, (w.f.layer L).hold x = .free
  word : ∀ x, (w.f.layer L).live x = true → NV.isDirty ((w.f.layer L).leaf x).word = false ∧ ((w.f.layer L).leaf x).mark = false

section
variable {w : Whole.St V} {L m : Nat} {d : Bytes}

theorem hasChanged_self (v : NV.W) : NV.hasChanged v v = false := by
  rw [NV.hasChanged_eq_false_iff]
  exact ⟨rfl, rfl, rfl, rfl, rfl, rfl, rfl⟩

theorem searchKlx_cases (k : Key) : k.hasSuffix = true ∨ Tree.searchKlx k ≤ 8 := by
  unfold Tree.searchKlx
  cases h : k.hasSuffix with
  | true => exact Or.inl rfl
  | false =>
    refine Or.inr ?_
    unfold Key.hasSuffix at h
    have := of_decide_eq_false h
    have e8 : ikeySize = 8 := rfl
    simp only [Bool.false_eq_true, if_false]
    omega

/-- In the leaves. -/
theorem end_scan (K : Know w) (R : Rest w L) (hw : Where w d L m) (sub : ∀ q, Where w d q (m + 1) → End fixed strict w d (.enter q (m + 1)))
    {x : Nat} (hx : (w.f.layer L).live x = true) (nf : End fixed strict w d (.read L m (.next x (kat d m)))) : ∀ n i,
    i + n = size 5 ((w.f.layer L).leaf x).b.perm →
    End fixed strict w d (.read L m (.leaf x (.ikey (kat d m) ((w.f.layer L).leaf x).word ((w.f.layer L).leaf x).b.perm i))) := by
  have up := R.up
  obtain ⟨hd, hmk⟩ := R.word x hx
  have froz : ((w.f.layer L).hold x).froz = none := by rw [R.hold x]; rfl
  have good : ∀ j, j < size 5 ((w.f.layer L).leaf x).b.perm → Chain.Good ((w.f.layer L).leaf x).b (get 5 ((w.f.layer L).leaf x).b.perm j) := by
    intro j hj
    have := (K.tidy L (K.ok.basic.made L up)).good x froz j
    rw [Chain.E_none (by rw [R.hold x]; rfl)] at this
    exact this hj
  have froz' : Freeze.isFrozen ((w.f.layer L).leaf x).b.perm = false := Cas.not_frozen (((K.ok.ok L (K.ok.basic.made L up)).C).thawed x froz)
  -- the check after a slot that matches
  have hit : ∀ j c, j < size 5 ((w.f.layer L).leaf x).b.perm → ((w.f.layer L).leaf x).b.ikey (get 5 ((w.f.layer L).leaf x).b.perm j) = (kat d m).ikey →
      ((w.f.layer L).leaf x).b.cell (get 5 ((w.f.layer L).leaf x).b.perm j) = c →
      ∀ y, y = ((w.f.layer L).leaf x).b.klx (get 5 ((w.f.layer L).leaf x).b.perm j) → (y = Tree.searchKlx (kat d m) ∨ Tree.layerKeylenx ≤ y ∧ (kat d m).hasSuffix = true) →
      c ≠ .null →
      End fixed strict w d (.read L m (.leaf x (.check (kat d m) ((w.f.layer L).leaf x).word (some (y, c))))) := by
    intro j c hj hk hc y hy hm hn
    have g := good j hj
    have e : pace fixed strict w d (.read L m (.leaf x (.check (kat d m) ((w.f.layer L).leaf x).word (some (y, c))))) =
        .read L m (.leaf x (.done (kat d m) (Race.interp y c))) := by
      simp only [pace, Chain.cstep, Race.rstep, hasChanged_self]
      rfl
    refine .step up ?_
    rw [e]
    refine .step up (.step up ?_)
    show End fixed strict w d (.out m (Race.interp y c))
    unfold Chain.Good at g
    rw [hc, ← hy] at g
    cases c with
    | null => exact absurd rfl hn
    | val v =>
      have : Race.interp y (.val v : Tree.Cell V) = .value v := by
        unfold Race.interp
        have h128 : Tree.layerKeylenx = 128 := rfl
        have hy' : y ≤ 64 := by
          rcases g with ⟨_, g | ⟨g, _⟩⟩ | ⟨⟨q, g⟩, _⟩
          · omega
          · omega
          · cases g
        rw [if_neg (by omega)]
      rw [this]
      exact ⟨0, .over⟩
    | layer q =>
      have h128 : Tree.layerKeylenx = 128 := rfl
      have hy' : y = 128 := by
        rcases g with ⟨⟨_, g⟩, _⟩ | ⟨_, g, _⟩
        · cases g
        · exact g
      have : Race.interp y (.layer q : Tree.Cell V) = .descend q := by
        unfold Race.interp
        rw [if_pos (by omega)]
      rw [this]
      refine sub q (K.leads d L m q hw ⟨x, j, hx, froz', hj, ?_⟩)
      rw [hw.keyIn]
      unfold Chain.shown
      rw [hc]
      dsimp only
      rw [if_pos]
      refine ⟨hk, by omega, ?_⟩
      rcases hm with hm | hm
      · rcases searchKlx_cases (kat d m) with h | h
        · exact h
        · omega
      · exact hm.2
  intro n
  induction n with
  | zero =>
    intro i hi
    refine .step up ?_
    have e1 : pace fixed strict w d (.read L m (.leaf x (.ikey (kat d m) ((w.f.layer L).leaf x).word ((w.f.layer L).leaf x).b.perm i))) =
        .read L m (.leaf x (.check (kat d m) ((w.f.layer L).leaf x).word none)) := by
      simp only [pace, Chain.cstep, Race.rstep]
      rw [if_neg (by omega)]
    rw [e1]
    refine .step up ?_
    have e2 : pace fixed strict w d (.read L m (.leaf x (.check (kat d m) ((w.f.layer L).leaf x).word none))) = .read L m (.leaf x (.dirty (kat d m))) := by
      simp only [pace, Chain.cstep, Race.rstep, hasChanged_self]
      rfl
    rw [e2]
    refine .step up ?_
    have e3 : pace fixed strict w d (.read L m (.leaf x (.dirty (kat d m)))) = .read L m (.next x (kat d m)) := by
      simp only [pace, Chain.cstep, hd]
      rfl
    rw [e3]
    exact nf
  | succ n ih =>
    intro i hi
    have on := ih (i + 1) (by omega)
    have hi' : i < size 5 ((w.f.layer L).leaf x).b.perm := by omega
    refine .step up ?_
    by_cases hk : ((w.f.layer L).leaf x).b.ikey (get 5 ((w.f.layer L).leaf x).b.perm i) = (kat d m).ikey
    case neg =>
      have : pace fixed strict w d (.read L m (.leaf x (.ikey (kat d m) ((w.f.layer L).leaf x).word ((w.f.layer L).leaf x).b.perm i))) =
          .read L m (.leaf x (.ikey (kat d m) ((w.f.layer L).leaf x).word ((w.f.layer L).leaf x).b.perm (i + 1))) := by
        simp only [pace, Chain.cstep, Race.rstep, hi', hk, if_true, if_false]
      rw [this]; exact on
    have : pace fixed strict w d (.read L m (.leaf x (.ikey (kat d m) ((w.f.layer L).leaf x).word ((w.f.layer L).leaf x).b.perm i))) =
        .read L m (.leaf x (.klx (kat d m) ((w.f.layer L).leaf x).word ((w.f.layer L).leaf x).b.perm i)) := by
      simp only [pace, Chain.cstep, Race.rstep, hi', hk, if_true]
    rw [this]
    refine .step up (.step up ?_)
    simp only [pace, Chain.cstep, Race.rstep]
    have g := good i hi'
    split
    · exact on
    · rename_i hn
      split
      · rename_i e1
        split
        · rename_i e2
          refine .step up ?_
          simp only [pace, Chain.cstep, Race.rstep]
          rw [if_pos e2]
          refine .step up ?_
          simp only [pace, Chain.cstep, Race.rstep]
          split
          · rw [← e2]
            exact hit i _ hi' hk rfl _ rfl (Or.inl e1) hn
          · exact on
        · exact hit i _ hi' hk rfl _ rfl (Or.inl e1) hn
      · split
        · rename_i e2
          exact hit i _ hi' hk rfl _ rfl (Or.inr e2) hn
        · exact on

/-- In one leaf. -/
theorem end_one (K : Know w) (R : Rest w L) (hw : Where w d L m) (sub : ∀ q, Where w d q (m + 1) → End fixed strict w d (.enter q (m + 1)))
    {x : Nat} (hx : (w.f.layer L).live x = true)
    (ih : ∀ y, (w.f.layer L).live y = true → ((w.f.layer L).leaf x).lo < ((w.f.layer L).leaf y).lo → ((w.f.layer L).leaf y).lo ≤ (kat d m).ikey →
      End fixed strict w d (.read L m (.leaf y (.stable (kat d m))))) :
    End fixed strict w d (.read L m (.leaf x (.stable (kat d m)))) := by
  have up := R.up
  have I := (K.ok.ok L (K.ok.basic.made L up)).C
  obtain ⟨hd, hmk⟩ := R.word x hx
  have nf : End fixed strict w d (.read L m (.next x (kat d m))) := by
    refine .step up ?_
    simp only [pace, Chain.cstep, hmk, Bool.false_eq_true, if_false]
    split
    · exact .step up ⟨0, .over⟩
    · rename_i h0
      refine .step up ?_
      simp only [pace, Chain.cstep]
      split
      · rename_i hle
        obtain ⟨h1, h2⟩ := I.link x hx h0
        exact ih _ h1 h2 hle
      · exact .step up ⟨0, .over⟩
  have froz : ((w.f.layer L).hold x).froz = none := by rw [R.hold x]; rfl
  have froz' : Freeze.isFrozen ((w.f.layer L).leaf x).b.perm = false := Cas.not_frozen (I.thawed x froz)
  refine .step up ?_
  simp only [pace, Chain.cstep, Race.rstep, hd, Bool.false_eq_true, if_false]
  refine .step up ?_
  simp only [pace, Chain.cstep, Race.rstep, froz', Bool.false_eq_true, if_false]
  exact end_scan K R hw sub hx nf _ 0 (Nat.zero_add _)

/-- Along the chain of leaves. -/
theorem end_leaf (K : Know w) (R : Rest w L) (hw : Where w d L m) (sub : ∀ q, Where w d q (m + 1) → End fixed strict w d (.enter q (m + 1))) : ∀ n x,
    (w.f.layer L).live x = true → (kat d m).ikey - ((w.f.layer L).leaf x).lo ≤ n →
    End fixed strict w d (.read L m (.leaf x (.stable (kat d m)))) := by
  intro n
  induction n with
  | zero => exact fun x hx hn => end_one K R hw sub hx (fun y _ h1 h2 => absurd h2 (by omega))
  | succ n ih => exact fun x hx hn => end_one K R hw sub hx (fun y hy h1 h2 => ih y hy (by omega))

/-- Down the internodes. -/
theorem end_stab (K : Know w) (R : Rest w L) (hl : ∀ x, (w.f.layer L).live x = true → End fixed strict w d (.read L m (.leaf x (.stable (kat d m))))) :
    ∀ n r p, Al (w.side L).ix.heap p → ((w.side L).ix.heap.node p).ht ≤ n → End fixed strict w d (.down L m (.stab (.get (kat d m).ikey) r p)) := by
  have up := R.up
  have O := K.ok.ok L (K.ok.basic.made L up)
  have H : Index.HInv _ (w.side L).ix.heap _ _ := O.F.I.H
  intro n
  induction n with
  | zero =>
    intro r p hp hn
    refine .step ⟨up, Or.inl rfl⟩ ?_
    have h0 : ((w.side L).ix.heap.node p).ht = 0 := by omega
    simp only [pace, Index.step, R.node p hp, h0, Bool.false_eq_true, if_false, if_true]
    refine .step ⟨up, Or.inr ⟨_, _, rfl⟩⟩ ?_
    exact hl _ (O.down p hp h0).1
  | succ n ih =>
    intro r p hp hn
    refine .step ⟨up, Or.inl rfl⟩ ?_
    by_cases h0 : ((w.side L).ix.heap.node p).ht = 0
    · simp only [pace, Index.step, R.node p hp, h0, Bool.false_eq_true, if_false, if_true]
      refine .step ⟨up, Or.inr ⟨_, _, rfl⟩⟩ ?_
      exact hl _ (O.down p hp h0).1
    · simp only [pace, Index.step, R.node p hp, h0, Bool.false_eq_true, if_false, if_true]
      refine .step ⟨up, Or.inl rfl⟩ ?_
      simp only [pace, Index.step]
      have he := R.arr p hp
      have fin : ∀ i, i ≤ ((w.side L).ix.heap.node p).arr.nkeys → End fixed strict w d (.down L m (.chld (.get (kat d m).ikey) r p
          (((w.side L).ix.heap.node p).vs, ((w.side L).ix.heap.node p).vi) i)) := by
        intro i hi
        rw [he] at hi
        obtain ⟨k1, k2, k3⟩ := H.kid p hp (by omega) i hi
        rw [← he] at k1 k3
        refine .step ⟨up, Or.inl rfl⟩ ?_
        have hc : ((w.side L).ix.heap.node p).arr.child i ≠ 0 := Nat.pos_iff_ne_zero.1 k1.1
        simp only [pace, Index.step, hc, if_false]
        refine .step ⟨up, Or.inl rfl⟩ ?_
        have hs : ((w.side L).ix.heap.node p).splitting = false := by
          cases e : ((w.side L).ix.heap.node p).splitting with
          | false => rfl
          | true => have := H.spl p hp e; rw [R.node p hp] at this; cases this
        have : Index.changed strict ((w.side L).ix.heap.node p) (((w.side L).ix.heap.node p).vs, ((w.side L).ix.heap.node p).vi) = false := by
          simp [Index.changed, hs, R.node p hp]
        simp only [pace, Index.step, this, Bool.false_eq_true, if_false]
        exact ih r _ k1 (by omega)
      have loop : ∀ g a b, b - a ≤ g → a ≤ b → b ≤ ((w.side L).ix.heap.node p).arr.nkeys → End fixed strict w d (.down L m (.cmp (.get (kat d m).ikey) r p
          (((w.side L).ix.heap.node p).vs, ((w.side L).ix.heap.node p).vi) a b)) := by
        intro g
        induction g with
        | zero =>
          intro a b h1 h2 h3
          refine .step ⟨up, Or.inl rfl⟩ ?_
          have : ¬ a < b := by omega
          simp only [pace, Index.step, this, if_false]
          exact fin a (by omega)
        | succ g ihg =>
          intro a b h1 h2 h3
          refine .step ⟨up, Or.inl rfl⟩ ?_
          by_cases hab : a < b
          · simp only [pace, Index.step, hab, if_true]
            split
            · exact ihg _ _ (by omega) (by omega) (by omega)
            · split
              · exact fin _ (by omega)
              · exact ihg _ _ (by omega) (by omega) (by omega)
          · simp only [pace, Index.step, hab, if_false]
            exact fin a (by omega)
      exact loop _ _ _ (Nat.le_refl _) (Nat.zero_le _) (Nat.le_refl _)

/-- Up to the root. -/
theorem end_climb (K : Know w) (R : Rest w L) (hl : ∀ x, (w.f.layer L).live x = true → End fixed strict w d (.read L m (.leaf x (.stable (kat d m))))) :
    ∀ n p, Al (w.side L).ix.heap p → ((w.side L).ix.heap.node (w.side L).ix.heap.top).ht - ((w.side L).ix.heap.node p).ht ≤ n →
      End fixed strict w d (.down L m (.climb (.get (kat d m).ikey) p)) := by
  have up := R.up
  have O := K.ok.ok L (K.ok.basic.made L up)
  have H : Index.HInv _ (w.side L).ix.heap _ _ := O.F.I.H
  intro n
  induction n with
  | zero =>
    intro p hp hn
    refine .step ⟨up, Or.inl rfl⟩ ?_
    simp only [pace, Index.step]
    split
    · exact end_stab K R hl _ _ _ hp (Nat.le_refl _)
    · rename_i h0
      obtain ⟨h1, h2, i, h3, h4⟩ := H.par p hp h0
      have := (H.kid _ h1 h2 i h3).2.2
      rw [h4] at this
      have := H.low _ h1
      omega
  | succ n ih =>
    intro p hp hn
    refine .step ⟨up, Or.inl rfl⟩ ?_
    simp only [pace, Index.step]
    split
    · exact end_stab K R hl _ _ _ hp (Nat.le_refl _)
    · rename_i h0
      obtain ⟨h1, h2, i, h3, h4⟩ := H.par p hp h0
      have := (H.kid _ h1 h2 i h3).2.2
      rw [h4] at this
      exact ih _ h1 (by omega)

/-- In one layer. -/
theorem end_layer (K : Know w) (R : ∀ L, w.f.up L = true → Rest w L) (hw : Where w d L m)
    (sub : ∀ q, Where w d q (m + 1) → End fixed strict w d (.enter q (m + 1))) : End fixed strict w d (.enter L m) := by
  have up := hw.up
  refine .step up ?_
  have O := K.ok.ok L (K.ok.basic.made L up)
  have H : Index.HInv _ (w.side L).ix.heap _ _ := O.F.I.H
  exact end_climb K (R L up) (fun x hx => end_leaf K (R L up) hw sub _ x hx (Nat.le_refl _)) _ _ H.rootAl (Nat.le_refl _)

theorem Where.lt (h : Where w d L (m + 1)) : 8 * (m + 1) < d.length := by
  rcases h.under.2 with g | g
  · have := h.len; rw [g] at this; exact absurd this (by show 0 ≠ _; omega)
  · rw [h.len] at g; exact g

/-- A lookup in a tree at rest comes to an end. -/
theorem end_enter (K : Know w) (R : ∀ L, w.f.up L = true → Rest w L) : ∀ n L m, d.length - 8 * m ≤ n → Where w d L m →
    End fixed strict w d (.enter L m) := by
  intro n
  induction n with
  | zero => exact fun L m hn hw => end_layer K R hw (fun q hq => absurd hq.lt (by omega))
  | succ n ih => exact fun L m hn hw => end_layer K R hw (fun q hq => ih q (m + 1) (by have := hq.lt; omega) hq)
end

/-! ## In an execution -/

/-- Where thread `i` is. -/
def At (s : St V) (i : Nat) (d : Bytes) : Pos V → Prop
  | .enter L m => s.ph i = .enter L m
  | .down L m p => s.ph i = .down L m ∧ (s.w.side L).ix.pc i = p ∧ (s.w.side L).key i = kat d m
  | .read L m c => s.ph i = .read L m ∧ (s.w.f.layer L).rd i = c
  | .over => (s.ph i).over = true
  | .stuck => True

/-- What lookups read of the tree is the same. -/
structure Same (w w' : Whole.St V) : Prop where
  up : ∀ L, w.f.up L = true → w'.f.up L = true
  leaf : ∀ L, w.f.up L = true → (w'.f.layer L).leaf = (w.f.layer L).leaf
  heap : ∀ L, w.f.up L = true → (w'.side L).ix.heap = (w.side L).ix.heap
  at_ : ∀ L, w.f.up L = true → (w'.side L).leaf = (w.side L).leaf

theorem at_step {w : Whole.St V} {s : St V} {i y : Nat} {qs : List Nat} {d : Bytes} (T : Same w s.w) (K : Know s.w) (ho : s.op i = .get d) (P : GetOk s.w i (s.ph i)) {p : Pos V}
    (hp : p.ok w) (h : At s i d p) : At (act fixed strict s (.run i y qs)) i d (pace fixed strict w d p) := by
  have eph : (act fixed strict s (.run i y qs)).ph i = (next s i y qs).2 := upd_same _ _ _
  have ew : (act fixed strict s (.run i y qs)).w = after fixed strict s.w (next s i y qs).1 := by
    show (match (next s i y qs).1 with | none => s.w | some a => Whole.act fixed strict s.w a) = _
    cases (next s i y qs).1 <;> rfl
  cases p with
  | stuck => trivial
  | over =>
    have h : (s.ph i).over = true := h
    show ((act fixed strict s (.run i y qs)).ph i).over = true
    rw [eph]
    unfold next
    cases e : s.ph i <;> rw [e] at h <;> first | rfl | cases h
  | enter L m =>
    have h : s.ph i = .enter L m := h
    have hu := T.up L hp
    rw [h] at P
    have en : next s i y qs = (some (.inLayer L (.call i (kat d m) false)), .down L m) := by
      unfold next; rw [h, ho]; rfl
    rw [en] at eph ew
    have hb : beside strict (L == 0) (s.w.lay L) (.call i (kat d m) false) =
        { s.w.side L with key := upd (s.w.side L).key i (kat d m),
                          ix := { (s.w.side L).ix with pc := upd (s.w.side L).ix.pc i (.climb (.get (kat d m).ikey) (s.w.side L).ix.heap.root) } } := by
      unfold beside
      dsimp only
      rcases out_cases (P L).out with g | ⟨o, r, g⟩
      · rw [show (s.w.lay L).s.ix.pc i = .idle from g]
        dsimp only
        unfold Index.act
        dsimp only
        rw [show (s.w.lay L).s.ix.pc i = .idle from g]; rfl
      · rw [show (s.w.lay L).s.ix.pc i = .done o r from g]
        dsimp only
        unfold Index.act
        dsimp only
        rw [show (s.w.lay L).s.ix.pc i = .done o r from g]; rfl
    have es : (act fixed strict s (.run i y qs)).w.side L = beside strict (L == 0) (s.w.lay L) (.call i (kat d m) false) := by
      rw [ew]
      exact post_side_same hu _
    rw [hb] at es
    refine ⟨eph, ?_, ?_⟩
    · rw [es]
      show upd _ _ _ _ = _
      rw [upd_same, T.heap L hp]
    · rw [es]
      exact upd_same _ _ _
  | down L m q =>
    obtain ⟨h1, h2, h3⟩ := h
    obtain ⟨hu0, hq⟩ := hp
    have hu := T.up L hu0
    rw [h1] at P
    have ed : next s i y qs = down s.w (.get d) L m i qs := by unfold next; rw [h1, ho]
    by_cases hl : ∃ o l, q = .look o l
    · obtain ⟨o, l, rfl⟩ := hl
      have en : next s i y qs = (some (.inLayer L (.enter i)), .read L m) := by
        rw [ed]; unfold down; rw [h2]
      rw [en] at eph ew
      refine ⟨eph, ?_⟩
      rw [ew]
      show ((Whole.act fixed strict s.w (.inLayer L (.enter i))).f.layer L).rd i = _
      rw [post_layer_same hu]
      have hQ := P.2 (K.ok.basic.made L hu)
      have : onLeaves (s.w.lay L) (.enter i) = some (.start i ((s.w.side L).leaf l) (kat d m)) := by
        unfold onLeaves
        dsimp only
        rw [show (s.w.lay L).s.ix.pc i = .look o l from h2]
        cases e : (s.w.f.layer L).rd i with
        | idle => rw [show (s.w.lay L).c.rd i = .idle from e]; dsimp only; rw [show (s.w.lay L).s.key i = _ from h3]; rfl
        | done k r b => rw [show (s.w.lay L).c.rd i = .done k r b from e]; dsimp only; rw [show (s.w.lay L).s.key i = _ from h3]; rfl
        | _ => rw [e] at hQ; cases hQ
      unfold lact
      rw [this, T.at_ L hu0]
      exact upd_same _ _ _
    · have hi : inIndex q = true := by
        rcases hq with g | g
        · exact g
        · exact absurd g hl
      have en : next s i y qs = (some (.inLayer L (.walk i)), .down L m) := by
        rw [ed]; unfold down; rw [h2]
        have := K.fine L i
        rw [h2] at this
        cases q <;> first | rfl | (cases hi; done) | exact absurd rfl (this _ _)
      rw [en] at eph ew
      have es : (act fixed strict s (.run i y qs)).w.side L = { s.w.side L with ix := Index.act strict (L == 0) (s.w.side L).ix (.run i) } := by
        rw [ew]
        show (Whole.act fixed strict s.w (.inLayer L (.walk i))).side L = _
        rw [post_side_same hu]
        unfold beside
        dsimp only
        rw [show (s.w.lay L).s.ix.pc i = q from h2, if_pos hi]; rfl
      have eg : pace fixed strict w d (.down L m q) = .down L m (Index.step strict (L == 0) (w.side L).ix.heap q).2 := by
        cases q <;> first | rfl | exact absurd ⟨_, _, rfl⟩ hl
      rw [eg]
      refine ⟨eph, ?_, ?_⟩
      · rw [es]
        show upd _ _ _ _ = _
        rw [upd_same, h2, T.heap L hu0]
      · rw [es]; exact h3
  | read L m c =>
    obtain ⟨h1, h2⟩ := h
    have hu0 : w.f.up L = true := hp
    have hu := T.up L hu0
    by_cases hd : ∃ k r b, c = .done k r b
    · obtain ⟨k, r, b, rfl⟩ := hd
      have en : next s i y qs = (none, answer m r) := by
        unfold next; rw [h1]; dsimp only; rw [h2]
      rw [en] at eph
      cases r with
      | value v => show (_ : Ph V).over = true; rw [eph]; rfl
      | absent => show (_ : Ph V).over = true; rw [eph]; rfl
      | descend q => exact eph
      | misread => trivial
    · have en : next s i y qs = (some (.inLayer L (.read i)), .read L m) := by
        unfold next; rw [h1]; dsimp only; rw [h2]
        cases c <;> first | rfl | exact absurd ⟨_, _, _, rfl⟩ hd
      rw [en] at eph ew
      have eg : pace fixed strict w d (.read L m c) = .read L m (Chain.cstep fixed (w.f.layer L).leaf c) := by
        cases c <;> first | rfl | exact absurd ⟨_, _, _, rfl⟩ hd
      rw [eg]
      refine ⟨eph, ?_⟩
      rw [ew]
      show ((Whole.act fixed strict s.w (.inLayer L (.read i))).f.layer L).rd i = _
      rw [post_layer_same hu]
      show upd _ _ _ _ = _
      rw [upd_same, show (s.w.lay L).c.rd i = c from h2, show (s.w.lay L).c.leaf = _ from T.leaf L hu0]
end Verif.Ops
