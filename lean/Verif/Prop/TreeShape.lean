import Verif.Prop.Tree
set_option linter.unusedSimpArgs false
set_option linter.unusedVariables false
/-!
# Shape of the tree: leaf chains (C27), leaf splits (C25), bounded work (C09)
-/
namespace Verif.Tree
open Verif.Spec
open Verif.Perm (size get)
variable {V : Type} {t : Tree V} {G : Ghost}

/-- The tree `t` is the result of some history of inserts into the empty tree. -/
def Reachable (t : Tree V) : Prop := ∃ h os, Legal h ∧ runFrom empty h = .ok (t, os)

/-- As `Reachable`, by a history in which no two keys clash. -/
def ReachableNC (t : Tree V) : Prop := ∃ h os, Legal h ∧ NoClash (keysOf h) ∧ runFrom empty h = .ok (t, os)

theorem Reachable.reach (ht : Reachable t) : ∃ h G, Reach h t G := by
  obtain ⟨h, os, hl, he⟩ := ht
  obtain ⟨t', os', G, h1, R, -⟩ := history_ok (fun _ => False) h hl
  rw [he] at h1; cases h1
  exact ⟨h, G, R⟩

theorem ReachableNC.reach (ht : ReachableNC t) : ∃ h K G, Reach h t G ∧ Exact K h t G := by
  obtain ⟨h, os, hl, hc, he⟩ := ht
  obtain ⟨t', os', G, h1, R, S⟩ := history_ok (keysOf h) h hl
  rw [he] at h1; cases h1
  exact ⟨h, _, G, R, S hc (fun p hp => ⟨p.2, hp⟩)⟩

/-- `x` is a leaf of the tree. -/
def IsLeaf (t : Tree V) (x : Nat) : Prop := x < t.fresh ∧ t.kind x = some .leaf

/-- The chunk a leaf advertises as its lower bound (`ikey_bound`: the chunk in slot 0). -/
def bound (t : Tree V) (x : Nat) : Nat := (t.body x).ikey 0

/-- The chunks of a leaf, in the order of its permutation. -/
def chunks (t : Tree V) (x : Nat) : List Nat := (List.range (t.body x).n).map fun j => ((t.body x).ent j).ikey

/-- Following `next` pointers from the first leaf leads to the second. -/
inductive NextChain (t : Tree V) : Nat → Nat → Prop
  | refl (x : Nat) : NextChain t x x
  | step {x y z : Nat} : t.next x = some y → NextChain t y z → NextChain t x z

/-- Two nodes belong to the same layer: climbing to the top leads to the same node. -/
def SameLayer (t : Tree V) (x y : Nat) : Prop := ∃ r, maybeParent t (walkFuel t) x = .ok r ∧ maybeParent t (walkFuel t) y = .ok r

theorem mem_chunks {x c : Nat} : c ∈ chunks t x ↔ ∃ j, j < (t.body x).n ∧ ((t.body x).ent j).ikey = c := by
  simp [chunks]

theorem IsLeaf.info (h : Inv0 t G) {x : Nat} (hx : IsLeaf t x) : ∃ i, G x = some i := (h.dom x).2 hx.1

theorem NextChain.snoc {x y z : Nat} (h : NextChain t x y) (hn : t.next y = some z) : NextChain t x z := by
  induction h with
  | refl x => exact .step hn (.refl z)
  | step h1 _ ih => exact .step h1 (ih hn)

theorem NextChain.compare {x y z : Nat} (h1 : NextChain t x y) (h2 : NextChain t x z) : NextChain t y z ∨ NextChain t z y := by
  induction h1 with
  | refl x => exact Or.inl h2
  | step a b ih =>
    cases h2 with
    | refl => exact Or.inr (.step a b)
    | step c d => rw [a] at c; cases c; exact ih d

/-- Leaves on the chain: later ones are responsible for later ranges. -/
theorem NextChain.ranges (h : Inv0 t G) {x y : Nat} (hc : NextChain t x y) : ∀ ix, G x = some ix → t.kind x = some .leaf →
    ∃ iy, G y = some iy ∧ t.kind y = some .leaf ∧ iy.pfx = ix.pfx ∧ (x = y ∨ ∃ hi, ix.hi = some hi ∧ hi ≤ iy.lo) := by
  induction hc with
  | refl x => intro ix hx hk; exact ⟨ix, hx, hk, rfl, Or.inl rfl⟩
  | @step x y z a b ih =>
    intro ix hx hk
    obtain ⟨iy, hy⟩ := (h.link x ix hk hx).next y a
    obtain ⟨iz, h1, h2, h3, h4⟩ := ih iy hy.dom hy.kind
    refine ⟨iz, h1, h2, by rw [h3, hy.pfx], Or.inr ⟨iy.lo, hy.lo, ?_⟩⟩
    rcases h4 with rfl | ⟨hi, e1, e2⟩
    · rw [hy.dom] at h1; cases h1; exact Nat.le_refl _
    · have := h.lohi y iy hy.dom hi e1; omega

/-- Walking left ends at a leaf without left neighbour. -/
theorem first_leaf (h : Inv0 t G) : ∀ m x ix, G x = some ix → t.kind x = some .leaf →
    (2 * ix.lo + 1 ≤ m ∨ (2 * ix.lo ≤ m ∧ ix.hi = some ix.lo)) →
    ∃ f i, G f = some i ∧ t.kind f = some .leaf ∧ t.prev f = none ∧ i.pfx = ix.pfx ∧ NextChain t f x := by
  intro m
  induction m using Nat.strongRecOn with
  | ind m ih =>
    intro x ix hx hk hm
    cases hp : t.prev x with
    | none => exact ⟨x, ix, hx, hk, hp, rfl, .refl x⟩
    | some w =>
      obtain ⟨h1, h2, iw, h3⟩ := (h.link x ix hk hx).prev w hp
      obtain ⟨iy, hy⟩ := (h.link w iw h2 h3).next x h1
      have : iy = ix := by have := hy.dom; rw [hx] at this; exact (Option.some.inj this).symm
      subst this
      have hle := h.lohi w iw h3 _ hy.lo
      have go : ∃ f i, G f = some i ∧ t.kind f = some .leaf ∧ t.prev f = none ∧ i.pfx = iw.pfx ∧ NextChain t f w := by
        by_cases e : iw.lo = iy.lo
        · have hne := hy.tight (Or.inl (by rw [hy.lo, e]))
          have : ¬ iy.hi = some iy.lo := by intro c; rw [c] at hne; simp at hne
          have hm' : 2 * iy.lo + 1 ≤ m := hm.resolve_right (fun c => this c.2)
          exact ih (m - 1) (by omega) w iw h3 h2 (Or.inr ⟨by omega, by rw [hy.lo, e]⟩)
        · refine ih (2 * iw.lo + 1) (by omega) w iw h3 h2 (Or.inl (by omega))
      obtain ⟨f, i, g1, g2, g3, g4, g5⟩ := go
      exact ⟨f, i, g1, g2, g3, by rw [g4, hy.pfx], g5.snoc h1⟩

theorem first_unique (h : Inv0 t G) (ru : RU t G) {x y : Nat} {ix iy : Info} (hx : G x = some ix) (hy : G y = some iy)
    (kx : t.kind x = some .leaf) (ky : t.kind y = some .leaf) (px : t.prev x = none) (py : t.prev y = none)
    (hp : ix.pfx = iy.pfx) : x = y := by
  have lx := (h.link x ix kx hx).noprev px
  have ly := (h.link y iy ky hy).noprev py
  -- the leaf responsible for chunk 0 is the first one or the one right of it
  have key : ∀ {x : Nat} {ix : Info}, G x = some ix → t.kind x = some .leaf → ix.lo = 0 → ∃ z iz, G z = some iz ∧
      t.kind z = some .leaf ∧ iz.pfx = ix.pfx ∧ iz.lo = 0 ∧ ltHi 0 iz.hi ∧ (z = x ∨ t.prev z = some x) := by
    intro x ix hx kx lx
    by_cases c : ltHi 0 ix.hi
    · exact ⟨x, ix, hx, kx, rfl, lx, c, Or.inl rfl⟩
    · cases hh : ix.hi with
      | none => rw [hh] at c; simp at c
      | some hi =>
        have h0 : hi = 0 := by rw [hh] at c; simp at c; exact c
        subst h0
        cases hn : t.next x with
        | none => have := (h.link x ix kx hx).nonext hn; rw [hh] at this; cases this
        | some z =>
          obtain ⟨iz, hz⟩ := (h.link x ix kx hx).next z hn
          have e : iz.lo = 0 := by have := hz.lo; rw [hh] at this; exact (Option.some.inj this).symm
          have := hz.tight (Or.inl (by rw [hh, lx]))
          rw [e] at this
          exact ⟨z, iz, hz.dom, hz.kind, hz.pfx, e, this, Or.inr hz.prev⟩
  obtain ⟨z, iz, a1, a2, a3, a4, a5, a6⟩ := key hx kx lx
  obtain ⟨w, iw, b1, b2, b3, b4, b5, b6⟩ := key hy ky ly
  have : z = w := leaf_unique h ru (ik := 0) a1 b1 a2 b2 (by rw [a3, b3, hp]) (by omega) a5 (by omega) b5
  subst this
  rcases a6 with rfl | a6
  · rcases b6 with b6 | b6
    · exact b6
    · rw [px] at b6; cases b6
  · rcases b6 with b6 | b6
    · rw [b6, py] at a6; cases a6
    · rw [a6] at b6; exact Option.some.inj b6

theorem NextChain.ikeys (h : Inv0 t G) {x y : Nat} (hx : IsLeaf t x) (hc : NextChain t x y) (hne : x ≠ y) :
    ∀ a, a ∈ chunks t x → ∀ b, b ∈ chunks t y → a ≤ b := by
  obtain ⟨ix, ex⟩ := hx.info h
  obtain ⟨iy, h1, h2, -, h3⟩ := hc.ranges h ix ex hx.2
  rcases h3 with e | ⟨hi, e1, e2⟩
  · exact absurd e hne
  · intro a ha b hb
    obtain ⟨j, hj, rfl⟩ := mem_chunks.1 ha
    obtain ⟨j', hj', rfl⟩ := mem_chunks.1 hb
    have := (h.body x ix hx.2 ex).hi j hj hi e1
    have := (h.body y iy h2 h1).lo j' hj'
    omega

/-- **C27** (links and order). In every reachable tree the neighbour pointers of the leaves agree with each other, the bound
of the right neighbour separates the chunks of the two leaves, and chunks inside a leaf are in order. -/
theorem C27_links_and_order (ht : Reachable t) (x : Nat) (hx : IsLeaf t x) :
    (chunks t x).Pairwise (· ≤ ·) ∧
    (∀ w, t.prev x = some w → IsLeaf t w ∧ t.next w = some x) ∧
    (∀ y, t.next x = some y → IsLeaf t y ∧ t.prev y = some x ∧ SameLayer t x y ∧
      (∀ a, a ∈ chunks t x → a ≤ bound t y) ∧ (∀ b, b ∈ chunks t y → bound t y ≤ b)) := by
  obtain ⟨h, G, R⟩ := ht.reach
  obtain ⟨i, hi⟩ := hx.info R.inv
  have L := R.inv.link x i hx.2 hi
  have B := R.inv.body x i hx.2 hi
  refine ⟨?_, ?_, ?_⟩
  · unfold chunks
    rw [List.pairwise_map]
    refine List.Pairwise.imp_of_mem ?_ (List.pairwise_lt_range (n := (t.body x).n))
    intro a b ha hb hab
    exact B.sorted a b hab (List.mem_range.1 hb)
  · intro w hw
    obtain ⟨h1, h2, iw, h3⟩ := L.prev w hw
    exact ⟨⟨R.inv.lt h3, h2⟩, h1⟩
  · intro y hy
    obtain ⟨iy, hn⟩ := L.next y hy
    have hb : bound t y = iy.lo := ((R.inv.link y iy hn.kind hn.dom).slot0 (by rw [hn.prev]; simp)).2.2
    refine ⟨⟨R.inv.lt hn.dom, hn.kind⟩, hn.prev, ?_, ?_, ?_⟩
    · obtain ⟨r, ir, a1, a2, a3, a4⟩ := climb R.inv (walkFuel t) x i hi (by omega)
      obtain ⟨r', ir', b1, b2, b3, b4⟩ := climb R.inv (walkFuel t) y iy hn.dom (by omega)
      have : r = r' := R.ru _ _ _ _ a2 b2 a4 b4 (by rw [a3, b3, hn.pfx])
      subst this
      exact ⟨r, a1, b1⟩
    · intro a ha
      obtain ⟨j, hj, rfl⟩ := mem_chunks.1 ha
      rw [hb]
      exact B.hi j hj _ hn.lo
    · intro b hb'
      obtain ⟨j, hj, rfl⟩ := mem_chunks.1 hb'
      rw [hb]
      exact (R.inv.body y iy hn.kind hn.dom).lo j hj

/-- **C27** (one chain per layer). Of two leaves of the same layer one is reached from the other along `next`, the chunks of
the earlier one are not above those of the later one, and the chain starts at a leaf without left neighbour. -/
theorem C27_one_chain_per_layer (ht : Reachable t) (x y : Nat) (hx : IsLeaf t x) (hy : IsLeaf t y) (hs : SameLayer t x y) :
    (∃ f, IsLeaf t f ∧ t.prev f = none ∧ NextChain t f x ∧ NextChain t f y) ∧
    (x = y ∨ (NextChain t x y ∧ ∀ a, a ∈ chunks t x → ∀ b, b ∈ chunks t y → a ≤ b) ∨
      (NextChain t y x ∧ ∀ a, a ∈ chunks t x → ∀ b, b ∈ chunks t y → b ≤ a)) := by
  obtain ⟨h, G, R⟩ := ht.reach
  obtain ⟨ix, ex⟩ := hx.info R.inv
  obtain ⟨iy, ey⟩ := hy.info R.inv
  obtain ⟨r, h1, h2⟩ := hs
  have hp : ix.pfx = iy.pfx := by
    obtain ⟨r1, ir, a1, a2, a3, a4⟩ := climb R.inv (walkFuel t) x ix ex (by omega)
    obtain ⟨r2, ir', b1, b2, b3, b4⟩ := climb R.inv (walkFuel t) y iy ey (by omega)
    rw [h1] at a1; rw [h2] at b1
    cases a1; cases b1
    rw [a2] at b2; cases b2
    rw [← a3, ← b3]
  obtain ⟨f, i, f1, f2, f3, f4, f5⟩ := first_leaf R.inv _ x ix ex hx.2 (Or.inl (Nat.le_refl _))
  obtain ⟨g, i', g1, g2, g3, g4, g5⟩ := first_leaf R.inv _ y iy ey hy.2 (Or.inl (Nat.le_refl _))
  have : f = g := first_unique R.inv R.ru f1 g1 f2 g2 f3 g3 (by rw [f4, g4, hp])
  subst this
  refine ⟨⟨f, ⟨R.inv.lt f1, f2⟩, f3, f5, g5⟩, ?_⟩
  by_cases e : x = y
  · exact Or.inl e
  · rcases f5.compare g5 with c | c
    · exact Or.inr (Or.inl ⟨c, c.ikeys R.inv hx e⟩)
    · exact Or.inr (Or.inr ⟨c, fun a ha b hb => c.ikeys R.inv hy (Ne.symm e) b hb a ha⟩)

/-- The bound of a leaf that is not the first is the lower end of its range. -/
theorem bound_eq (h : Inv0 t G) {x : Nat} {i : Info} (hx : G x = some i) (hk : t.kind x = some .leaf) (hp : t.prev x ≠ none) :
    bound t x = i.lo := ((h.link x i hk hx).slot0 hp).2.2

/-- **C27** (separators). If a leaf that is not the first is a child of an internode other than its leftmost one, the
internode's separator left of it is the leaf's bound. -/
theorem C27_bound_is_separator (ht : Reachable t) (x : Nat) (hx : IsLeaf t x) (hp : t.prev x ≠ none) (p j : Nat)
    (hpar : t.parent x = some p) (hj : j ≤ (t.arr p).nkeys) (hj0 : 0 < j) (hc : (t.arr p).child j = some x) :
    (t.arr p).ikey (j - 1) = bound t x := by
  obtain ⟨h, G, R⟩ := ht.reach
  obtain ⟨i, hi⟩ := hx.info R.inv
  obtain ⟨ip, j', g1, g2, g3, g4, g5⟩ := R.inv.up_child (E := G) hi hpar
  have : j = j' := g4.inj j j' hj g3 (by rw [hc, g5.eq])
  subst this
  rw [bound_eq R.inv hi hx.2 hp, g5.lo, clo, if_neg (by omega)]

/-- `x` is reached from `a` by always taking the leftmost child. -/
inductive LeftPath (t : Tree V) : Nat → Nat → Prop
  | refl (x : Nat) : LeftPath t x x
  | step {a c x : Nat} : t.kind a = some .inode → (t.arr a).child 0 = some c → LeftPath t c x → LeftPath t a x

/-- `x` is reached from `a` by taking children. -/
inductive Under (t : Tree V) : Nat → Nat → Prop
  | refl (x : Nat) : Under t x x
  | step {a c x j : Nat} : t.kind a = some .inode → j ≤ (t.arr a).nkeys → (t.arr a).child j = some c → Under t c x → Under t a x

theorem Under.trans {a b c : Nat} (h1 : Under t a b) (h2 : Under t b c) : Under t a c := by
  induction h1 with
  | refl => exact h2
  | step a b c _ ih => exact .step a b c (ih h2)

theorem child_info (h : Inv0 t G) {a j c : Nat} {ia : Info} (ha : G a = some ia) (hk : t.kind a = some .inode)
    (hj : j ≤ (t.arr a).nkeys) (hc : (t.arr a).child j = some c) :
    ∃ ic, G c = some ic ∧ ic.lo = clo (t.arr a) ia.lo j ∧ ic.hi = chi (t.arr a) ia.hi j ∧ ia.lo ≤ ic.lo := by
  obtain ⟨c', ic, g⟩ := (h.inode a ia hk ha).child j hj
  have : c' = c := by have := g.eq; rw [hc] at this; exact (Option.some.inj this).symm
  subst this
  refine ⟨ic, g.dom, g.lo, g.hi, ?_⟩
  rw [g.lo, clo]
  split
  · exact Nat.le_refl _
  · exact (h.inode a ia hk ha).klo (j - 1) (by omega)

theorem Under.lo (h : Inv0 t G) {a x : Nat} (hu : Under t a x) : ∀ ia ix, G a = some ia → G x = some ix → ia.lo ≤ ix.lo := by
  induction hu with
  | refl x => intro ia ix h1 h2; rw [h1] at h2; cases h2; exact Nat.le_refl _
  | step hk hj hc _ ih =>
    intro ia ix h1 h2
    obtain ⟨ic, g1, g2, g3, g4⟩ := child_info h h1 hk hj hc
    have := ih ic ix g1 h2
    omega

theorem LeftPath.hi (h : Inv0 t G) {a x : Nat} (hu : LeftPath t a x) : ∀ ia ix b, G a = some ia → G x = some ix → ia.hi = some b →
    ∃ b', ix.hi = some b' ∧ b' ≤ b := by
  induction hu with
  | refl x => intro ia ix b h1 h2 h3; rw [h1] at h2; cases h2; exact ⟨b, h3, Nat.le_refl _⟩
  | @step a c x hk hc _ ih =>
    intro ia ix b h1 h2 h3
    obtain ⟨ic, g1, g2, g3, g4⟩ := child_info h h1 hk (Nat.zero_le _) hc
    have n1 := (h.inode a ia hk h1).n1
    rw [chi, if_neg (by omega)] at g3
    obtain ⟨b', e1, e2⟩ := ih ic ix _ g1 h2 g3
    have := (h.inode a ia hk h1).khi 0 (by omega) b h3
    exact ⟨b', e1, by omega⟩

/-- Everything under a node except the leaf at the end of its leftmost path lies to the right of that leaf. -/
theorem LeftPath.least (h : Inv0 t G) {a x : Nat} (hl : LeftPath t a x) : t.kind x = some .leaf → ∀ ia ix w iw, G a = some ia →
    G x = some ix → G w = some iw → t.kind w = some .leaf → Under t a w → w ≠ x → ∃ b, ix.hi = some b ∧ b ≤ iw.lo := by
  induction hl with
  | refl x =>
    intro hk ia ix w iw _ _ _ _ hu hne
    cases hu with
    | refl => exact absurd rfl hne
    | step hk' _ _ _ => rw [hk] at hk'; cases hk'
  | @step a c x hk hc hp ih =>
    intro hkx ia ix w iw h1 h2 h3 h4 hu hne
    cases hu with
    | refl => rw [hk] at h4; cases h4
    | @step _ c' _ j hk' hj hc' hu' =>
      by_cases e : j = 0
      · subst e
        rw [hc] at hc'; cases hc'
        obtain ⟨ic, g1, -⟩ := child_info h h1 hk (Nat.zero_le _) hc
        exact ih hkx ic ix w iw g1 h2 h3 h4 hu' hne
      · obtain ⟨ic, g1, g2, g3, g4⟩ := child_info h h1 hk (Nat.zero_le _) hc
        obtain ⟨ic', f1, f2, f3, f4⟩ := child_info h h1 hk hj hc'
        have n1 := (h.inode a ia hk h1).n1
        rw [chi, if_neg (by omega)] at g3
        rw [clo, if_neg e] at f2
        obtain ⟨b', e1, e2⟩ := hp.hi h ic ix _ g1 h2 g3
        have := hu'.lo h ic' iw f1 h3
        refine ⟨b', e1, ?_⟩
        by_cases e' : j - 1 = 0
        · rw [e'] at f2; omega
        · have := (h.inode a ia hk h1).sorted 0 (j - 1) (by omega) (by omega)
          omega

theorem under_top (h : Inv0 t G) : ∀ d x i, G x = some i → t.fresh - hgt t x ≤ d →
    ∃ r ir, G r = some ir ∧ ir.pfx = i.pfx ∧ t.parent r = none ∧ Under t r x := by
  intro d
  induction d with
  | zero => intro x i hx hd; have := h.hgt x (h.lt hx); omega
  | succ d ih =>
    intro x i hx hd
    have hlt := h.hgt x (h.lt hx)
    cases hp : t.parent x with
    | none => exact ⟨x, i, hx, rfl, hp, .refl x⟩
    | some p =>
      obtain ⟨ip, j, h1, h2, h3, h4, h5⟩ := h.up_child (E := G) hx hp
      have hh := h5.hgt
      obtain ⟨r, ir, g1, g2, g3, g4⟩ := ih p ip h1 (by omega)
      refine ⟨r, ir, g1, by rw [g2, ← h5.pfx], g3, ?_⟩
      exact g4.trans (.step h2 h3 h5.eq (.refl x))

/-- **C27** (separators, in full). For every leaf that is not the first there is an internode above it with a separator equal
to the leaf's bound, such that the leaf is the leftmost one in the subtree right of that separator. -/
theorem C27_every_bound_is_a_separator (ht : Reachable t) (x : Nat) (hx : IsLeaf t x) (hp : t.prev x ≠ none) :
    ∃ q j a, t.kind q = some .inode ∧ 0 < j ∧ j ≤ (t.arr q).nkeys ∧ (t.arr q).child j = some a ∧ LeftPath t a x ∧
      (t.arr q).ikey (j - 1) = bound t x := by
  obtain ⟨h, G, R⟩ := ht.reach
  obtain ⟨i, hi⟩ := hx.info R.inv
  rw [bound_eq R.inv hi hx.2 hp]
  have climbL : ∀ d a ia, G a = some ia → t.fresh - hgt t a ≤ d → ia.lo = i.lo → ia.pfx = i.pfx → LeftPath t a x →
      (∃ q j a, t.kind q = some .inode ∧ 0 < j ∧ j ≤ (t.arr q).nkeys ∧ (t.arr q).child j = some a ∧ LeftPath t a x ∧
        (t.arr q).ikey (j - 1) = i.lo) ∨
      (∃ r ir, G r = some ir ∧ t.parent r = none ∧ ir.pfx = i.pfx ∧ ir.lo = i.lo ∧ LeftPath t r x) := by
    intro d
    induction d with
    | zero => intro a ia ha hd; have := R.inv.hgt a (R.inv.lt ha); omega
    | succ d ih =>
      intro a ia ha hd hlo hpf hl
      have hlt := R.inv.hgt a (R.inv.lt ha)
      cases hpa : t.parent a with
      | none => exact Or.inr ⟨a, ia, ha, hpa, hpf, hlo, hl⟩
      | some p =>
        obtain ⟨ip, j, h1, h2, h3, h4, h5⟩ := R.inv.up_child (E := G) ha hpa
        have hh := h5.hgt
        by_cases e : j = 0
        · subst e
          have := h5.lo
          rw [clo, if_pos rfl] at this
          exact ih p ip h1 (by omega) (by omega) (by rw [← h5.pfx, hpf]) (.step h2 h5.eq hl)
        · refine Or.inl ⟨p, j, a, h2, by omega, h3, h5.eq, hl, ?_⟩
          have := h5.lo
          rw [clo, if_neg e] at this
          omega
  rcases climbL _ x i hi (Nat.le_refl _) rfl rfl (.refl x) with c | ⟨r, ir, r1, r2, r3, r4, r5⟩
  · exact c
  · exfalso
    have h0 : i.lo = 0 := by rw [← r4]; exact ((R.inv.up r ir r1).top r2).2.1
    cases hw : t.prev x with
    | none => exact hp hw
    | some w =>
      obtain ⟨g1, g2, iw, g3⟩ := (R.inv.link x i hx.2 hi).prev w hw
      obtain ⟨i', hn⟩ := (R.inv.link w iw g2 g3).next x g1
      have : i' = i := by have := hn.dom; rw [hi] at this; exact (Option.some.inj this).symm
      subst this
      have hwlo : iw.lo = 0 := by have := R.inv.lohi w iw g3 _ hn.lo; omega
      have hne := hn.tight (Or.inl (by rw [hn.lo, hwlo, h0]))
      obtain ⟨r', ir', a1, a2, a3, a4⟩ := under_top R.inv _ w iw g3 (Nat.le_refl _)
      have : r' = r := R.ru _ _ _ _ a1 r1 a3 r2 (by rw [a2, r3, hn.pfx])
      subst this
      have hwx : w ≠ x := by
        intro e; subst e
        rw [g3] at hi; cases hi
        have := hn.lo
        rw [h0] at this hne
        rw [this] at hne; simp at hne
      obtain ⟨b, e1, e2⟩ := r5.least R.inv hx.2 ir i' w iw r1 hi g3 g2 a4 hwx
      rw [e1] at hne; simp at hne; omega

/-- **C27** (routing). A lookup for the bound of a leaf `x` is routed to `x` itself; only if equal chunks were separated by a
split can it be routed to a direct neighbour with the same bound instead. -/
theorem C27_bound_routes_to_leaf (ht : Reachable t) (x : Nat) (hx : IsLeaf t x) (hp : t.prev x ≠ none) :
    ∃ r y, maybeParent t (walkFuel t) x = .ok r ∧ reachLeaf t r (bound t x) (walkFuel t) r = .ok y ∧
      (y = x ∨ (t.next y = some x ∧ (t.prev y ≠ none → bound t y = bound t x)) ∨
        (t.next x = some y ∧ bound t y = bound t x)) := by
  obtain ⟨h, G, R⟩ := ht.reach
  obtain ⟨i, hi⟩ := hx.info R.inv
  obtain ⟨r, ir, y, iy, h1, h2, h3, h4, h5, h6, h7, h8, h9⟩ := enter R.inv (bound t x) hi
  refine ⟨r, y, h1, h5, ?_⟩
  have hb := bound_eq R.inv hi hx.2 hp
  rw [hb] at h9 ⊢
  -- the leaf responsible for the bound, seen from `x` and from `y`
  have key : ∀ {x : Nat} {ix : Info}, G x = some ix → t.kind x = some .leaf → ix.lo ≤ i.lo → leHi i.lo ix.hi →
      (ix.hi = some i.lo → ix.lo = i.lo) → ∃ z iz, G z = some iz ∧
      t.kind z = some .leaf ∧ iz.pfx = ix.pfx ∧ iz.lo ≤ i.lo ∧ ltHi i.lo iz.hi ∧
      (z = x ∨ (t.next x = some z ∧ t.prev z = some x ∧ iz.lo = i.lo ∧ ix.lo = i.lo)) := by
    intro x ix hx kx lx hh he
    by_cases c : ltHi i.lo ix.hi
    · exact ⟨x, ix, hx, kx, rfl, lx, c, Or.inl rfl⟩
    · cases hq : ix.hi with
      | none => rw [hq] at c; simp at c
      | some hi =>
        have h0 : hi = i.lo := by rw [hq] at c hh; simp at c hh; omega
        subst h0
        have hlo := he hq
        cases hn : t.next x with
        | none => have := (R.inv.link x ix kx hx).nonext hn; rw [hq] at this; cases this
        | some z =>
          obtain ⟨iz, hz⟩ := (R.inv.link x ix kx hx).next z hn
          have e : iz.lo = i.lo := by have := hz.lo; rw [hq] at this; exact (Option.some.inj this).symm
          have := hz.tight (Or.inl (by rw [hq, hlo]))
          rw [e] at this
          exact ⟨z, iz, hz.dom, hz.kind, hz.pfx, by omega, this, Or.inr ⟨rfl, hz.prev, e, hlo⟩⟩
  obtain ⟨z, iz, a1, a2, a3, a4, a5, a6⟩ := key hi hx.2 (Nat.le_refl _) (R.inv.lohi x i hi) (fun _ => rfl)
  obtain ⟨w, iw, b1, b2, b3, b4, b5, b6⟩ := key h6 h7 h9.lo h9.hi h9.eq
  have : z = w := leaf_unique R.inv R.ru a1 b1 a2 b2 (by rw [a3, b3, h8]) a4 a5 b4 b5
  subst this
  rcases a6 with rfl | ⟨a6, a7, a8, a9⟩
  · rcases b6 with b6 | ⟨b6, b7, b8, b9⟩
    · exact Or.inl b6.symm
    · exact Or.inr (Or.inl ⟨b6, fun hy => by rw [bound_eq R.inv h6 h7 hy, b9]⟩)
  · rcases b6 with rfl | ⟨b6, b7, b8, b9⟩
    · refine Or.inr (Or.inr ⟨a6, ?_⟩)
      rw [bound_eq R.inv a1 a2 (by rw [a7]; simp), a8]
    · rw [a7] at b7; exact Or.inl (Option.some.inj b7).symm

/-- **C27** (routing, no clashes). Without clashing keys a lookup for the bound of a leaf is routed to that leaf, and bounds
strictly separate the chunks. -/
theorem C27_bound_routes_exactly (ht : ReachableNC t) (x : Nat) (hx : IsLeaf t x) :
    (t.prev x ≠ none → ∃ r, maybeParent t (walkFuel t) x = .ok r ∧ reachLeaf t r (bound t x) (walkFuel t) r = .ok x) ∧
    (∀ y, t.next x = some y → ∀ a, a ∈ chunks t x → a < bound t y) := by
  obtain ⟨h, K, G, R, S⟩ := ht.reach
  obtain ⟨i, hi⟩ := hx.info R.inv
  constructor
  · intro hp
    obtain ⟨r, ir, y, iy, h1, h2, h3, h4, h5, h6, h7, h8, h9⟩ := enter R.inv (bound t x) hi
    refine ⟨r, h1, ?_⟩
    have hb := bound_eq R.inv hi hx.2 hp
    rw [hb] at h9
    have s1 := (S.strong.strict x i hx.2 hi).ne
    have s2 := (S.strong.strict y iy h7 h6).ne
    have : ltHi i.lo iy.hi := by
      intro z hz
      have := h9.hi z hz
      rcases Nat.lt_or_ge i.lo z with c | c
      · exact c
      · have e : z = i.lo := by omega
        subst e
        have := h9.eq hz
        rw [hz, this] at s2; simp at s2
    have : y = x := leaf_unique R.inv R.ru h6 hi h7 hx.2 h8 h9.lo this (Nat.le_refl _) s1
    subst this; exact h5
  · intro y hy a ha
    obtain ⟨iy, hn⟩ := (R.inv.link x i hx.2 hi).next y hy
    rw [bound_eq R.inv hn.dom hn.kind (by rw [hn.prev]; simp)]
    obtain ⟨j, hj, rfl⟩ := mem_chunks.1 ha
    exact (S.strong.strict x i hx.2 hi).hi j hj _ hn.lo

/-! ## C25: splitting a full leaf -/

/-- The entries of a leaf, in the order of its permutation. -/
def entries (b : Leaf V) : List (Ent V) := (List.range b.n).map b.ent

theorem mem_entries {b : Leaf V} {e : Ent V} : e ∈ entries b ↔ ∃ j, j < b.n ∧ b.ent j = e := by simp [entries]

theorem split_pos (R : Inv0 t G) {x : Nat} {i : Info} (hx : IsLeaf t x) (hi : G x = some i) (hfull : (t.body x).n = 24) {ik : Nat}
    (hlo : t.prev x ≠ none → bound t x ≤ ik) (hhi : ∀ y, t.next x = some y → ik < bound t y) :
    ∃ pos, calcSplitPoint (t.body x) ik = some pos ∧ 0 < pos ∧ pos < 24 ∧
      (((t.body x).ent (pos - 1)).ikey < ((t.body x).ent pos).ikey ∨
       (((t.body x).ent (pos - 1)).ikey = ((t.body x).ent pos).ikey ∧ ((t.body x).ent pos).ikey < ik)) := by
  have B := R.body x i hx.2 hi
  have L := R.link x i hx.2 hi
  have h1 : i.lo ≤ ik := by
    by_cases c : t.prev x = none
    · rw [L.noprev c]; omega
    · rw [← bound_eq R hi hx.2 c]; exact hlo c
  have h2 : ltHi ik i.hi := by
    cases hn : t.next x with
    | none => rw [L.nonext hn]; simp
    | some y =>
      obtain ⟨iy, hy⟩ := L.next y hn
      rw [hy.lo, ← bound_eq R hy.dom hy.kind (by rw [hy.prev]; simp)]
      simpa using hhi y hn
  obtain ⟨pos, p1, p2, p3, p4, p5⟩ := calcSplitPoint_spec B hfull ik h1 h2
  exact ⟨pos, p1, p2, p3, p5⟩

/-- **C25, partial.** For every full leaf `x` of a reachable tree and every chunk `ik` the leaf is responsible for, the split
that makes room for `ik` has a position, keeps the entries and their order, leaves both halves non-empty, and its separator
`s` (the bound of the new leaf) is not below the left half and not above the right half.  Missing: chunks equal to the
separator can stay in the left half (`C25_equal_chunks_separated`); this theorem says that this happens only if the
inserted chunk lies above them. -/
theorem C25_split_partitions_partial (ht : Reachable t) (x : Nat) (hx : IsLeaf t x) (hfull : (t.body x).n = 24) (ik : Nat)
    (hlo : t.prev x ≠ none → bound t x ≤ ik) (hhi : ∀ y, t.next x = some y → ik < bound t y) :
    ∃ pos, calcSplitPoint (t.body x) ik = some pos ∧
      let l := (splitLeaf (t.body x) pos).1
      let r := (splitLeaf (t.body x) pos).2.1
      let s := (splitLeaf (t.body x) pos).2.2
      entries l ++ entries r = entries (t.body x) ∧ entries l ≠ [] ∧ entries r ≠ [] ∧ r.ikey 0 = s ∧
      (∀ e, e ∈ entries l → e.ikey ≤ s) ∧ (∀ e, e ∈ entries r → s ≤ e.ikey) ∧
      (∀ e, e ∈ entries l → e.ikey = s → s < ik) := by
  obtain ⟨h, G, R⟩ := ht.reach
  obtain ⟨i, hi⟩ := hx.info R.inv
  have B := R.inv.body x i hx.2 hi
  obtain ⟨pos, p1, p2, p3, p5⟩ := split_pos R.inv hx hi hfull hlo hhi
  refine ⟨pos, p1, ?_⟩
  obtain ⟨q1, q2, q3, q4, q5, q6, q7, q8, q9, q10, q11⟩ := splitLeaf_spec B.perm p2 (by omega : pos < (t.body x).n)
  dsimp only
  have hl : ∀ e, e ∈ entries (splitLeaf (t.body x) pos).1 → e.ikey ≤ ((t.body x).ent (pos - 1)).ikey := by
    intro e he
    obtain ⟨j, hj, rfl⟩ := mem_entries.1 he
    rw [q1] at hj
    rw [q5 j hj]
    by_cases c : j = pos - 1
    · rw [c]
    · exact B.sorted j (pos - 1) (by omega) (by omega)
  refine ⟨?_, ?_, ?_, by rw [q11, q7], ?_, ?_, ?_⟩
  · unfold entries
    rw [q1, q2, hfull]
    apply List.ext_getElem
    · simp
      omega
    · intro n hn1 hn2
      simp at hn1 hn2
      rw [List.getElem_append]
      split
      · rename_i c; simp at c; simp [q5 n c]
      · rename_i c; simp at c; simp; rw [q6 _ (by omega)]; congr 1; omega
  · intro c; have := congrArg List.length c; simp [entries, q1] at this; omega
  · intro c; have := congrArg List.length c; simp [entries, q2] at this; omega
  · intro e he
    have := hl e he
    rw [q7]; omega
  · intro e he
    obtain ⟨j, hj, rfl⟩ := mem_entries.1 he
    rw [q2] at hj
    rw [q6 j hj, q7]
    by_cases c : j = 0
    · simp [c]
    · exact B.sorted pos (pos + j) (by omega) (by omega)
  · intro e he hs
    have := hl e he
    rw [q7] at hs ⊢
    omega

theorem ReachableNC.reachable (ht : ReachableNC t) : Reachable t := by
  obtain ⟨h, os, a, b, c⟩ := ht
  exact ⟨h, os, a, c⟩

/-- **C25** for keys that do not clash: in addition, the left half lies strictly below the separator. -/
theorem C25_split_strict_partial (ht : ReachableNC t) (x : Nat) (hx : IsLeaf t x) (hfull : (t.body x).n = 24) (ik : Nat)
    (hlo : t.prev x ≠ none → bound t x ≤ ik) (hhi : ∀ y, t.next x = some y → ik < bound t y) :
    ∃ pos, calcSplitPoint (t.body x) ik = some pos ∧
      ∀ e, e ∈ entries (splitLeaf (t.body x) pos).1 → e.ikey < (splitLeaf (t.body x) pos).2.2 := by
  obtain ⟨h, K, G, R, S⟩ := ht.reach
  obtain ⟨i, hi⟩ := hx.info R.inv
  have B := R.inv.body x i hx.2 hi
  obtain ⟨pos, p1, p2, p3, p5⟩ := split_pos R.inv hx hi hfull hlo hhi
  refine ⟨pos, p1, ?_⟩
  obtain ⟨q1, q2, q3, q4, q5, q6, q7, -⟩ := splitLeaf_spec B.perm p2 (by omega : pos < (t.body x).n)
  intro e he
  obtain ⟨j, hj, rfl⟩ := mem_entries.1 he
  rw [q1] at hj
  rw [q5 j hj, q7]
  exact (S.strong.strict x i hx.2 hi).lt j pos hj (by omega)

/-! ## C09: bounded work -/

/-- **C09.** On every reachable tree a lookup passes through at most `len / 8 + 1` layers and an insert goes through its outer
loop at most `2 * (len / 8) + 3` times, and these loops never take a lock the thread already holds.  (The fuel is the first
argument of the loops; every climb and every descent inside has fuel `levels t + 1`, every walk along the leaf chain in a
lookup fuel 2, in an insert 128; running out of any of them, and waiting for a held lock, would be an error.) -/
theorem C09_bounded_work (ht : Reachable t) (k : Bytes) (hk : k.length ≤ 256) (v : V) :
    (∃ r, getLoop t (k.length / 8 + 1) (Key.mk' k) t.root = .ok r) ∧
    ∃ t' r, insertLoop v (2 * (k.length / 8) + 3) t (Key.mk' k) t.root = .ok (t', r) := by
  obtain ⟨h, os, hl, he⟩ := ht
  obtain ⟨t', os', G, h1, R, -⟩ := history_ok (fun _ => False) h hl
  rw [he] at h1; cases h1
  have hnew : Key.new? k = some (Key.mk' k) := by simp [Key.new?, maxKeyLength, hk]
  constructor
  · obtain ⟨r, g, -⟩ := get_ok R.inv k hk
    exact ⟨r, by simpa [get', hnew] using g⟩
  · obtain ⟨t', r, G', g, -⟩ := history_step (fun _ => False) R hl.len hk v
    exact ⟨t', r, by simpa [insert, hnew] using g⟩

/-- **C09** (height). The height of a reachable tree is logarithmic in its number of nodes, and an insert adds at most
6800 nodes. -/
theorem C09_height_logarithmic (h : History V) (hl : Legal h) : ∃ t os, runFrom empty h = .ok (t, os) ∧
    8 ^ (levels t - 1) ≤ t.fresh ∧ t.fresh ≤ 1 + 6800 * h.length := by
  obtain ⟨t, os, G, h1, R, -⟩ := history_ok (fun _ => False) h hl
  refine ⟨t, os, h1, ?_, R.fresh⟩
  have e : levels t = (List.range t.fresh).foldl (fun m x => max m (hgt t x)) 0 := by
    unfold levels hgt; rfl
  rw [e]
  have key : ∀ (l : List Nat) (m : Nat), 8 ^ (m - 1) ≤ t.fresh → (∀ x, x ∈ l → x < t.fresh) →
      8 ^ (l.foldl (fun m x => max m (hgt t x)) m - 1) ≤ t.fresh := by
    intro l
    induction l with
    | nil => intro m h1 _; exact h1
    | cons a l ih =>
      intro m h1 h2
      refine ih (max m (hgt t a)) ?_ (fun x hx => h2 x (by simp [hx]))
      obtain ⟨i, hi⟩ := (R.inv.dom a).2 (h2 a (by simp))
      have := pow_height R.inv hi
      rcases Nat.le_total m (hgt t a) with c | c
      · rwa [Nat.max_eq_right c]
      · rwa [Nat.max_eq_left c]
  refine key _ 0 ?_ (fun x hx => List.mem_range.1 hx)
  obtain ⟨i, hi, -⟩ := R.inv.root
  have := R.inv.lt hi
  simp; omega

/-! ## The hypotheses are met -/

/-- Project a value out of the tree a history leads to. -/
def after {α : Type} (h : History V) (f : Tree V → α) : Except Err α := do
  let (t, _) ← runFrom empty h
  .ok (f t)

theorem reachable_of_after {h : History V} (hl : Legal h) {P : Tree V → Prop} [DecidablePred P]
    (e : isOk (after h fun t => decide (P t)) true = true) : ∃ t os, runFrom empty h = .ok (t, os) ∧ P t := by
  have e := isOk_iff.1 e
  unfold after at e
  cases c : runFrom empty h with
  | error x => rw [c] at e; cases e
  | ok p =>
    obtain ⟨t, os⟩ := p
    rw [c] at e
    exact ⟨t, os, rfl, of_decide_eq_true (Except.ok.inj e)⟩

set_option maxRecDepth 100000

/-- **C25 is violated for equal chunks.** A reachable full leaf and a chunk (of the key `[201, 12]`) whose split leaves the chunk
of the separator also in the left half. -/
theorem C25_equal_chunks_separated : ∃ t : Tree Nat, Reachable t ∧ IsLeaf t 0 ∧ (t.body 0).n = 24 ∧ t.next 0 = none ∧
    ∃ pos, calcSplitPoint (t.body 0) (chunk [201, 12]) = some pos ∧
      ∃ e, e ∈ entries (splitLeaf (t.body 0) pos).1 ∧ e.ikey = (splitLeaf (t.body 0) pos).2.2 := by
  have hl : Legal (lossHistory.take 24) := ⟨by decide +kernel, by decide +kernel⟩
  obtain ⟨t, os, h1, a1, a2, a3, a4, a5, a6, a7⟩ := reachable_of_after hl
    (P := fun t => 0 < t.fresh ∧ t.kind 0 = some .leaf ∧ (t.body 0).n = 24 ∧ t.next 0 = none ∧
      calcSplitPoint (t.body 0) (chunk [201, 12]) = some 12 ∧
      11 < (splitLeaf (t.body 0) 12).1.n ∧ ((splitLeaf (t.body 0) 12).1.ent 11).ikey = (splitLeaf (t.body 0) 12).2.2)
    (by decide +kernel)
  exact ⟨t, ⟨_, os, hl, h1⟩, ⟨a1, a2⟩, a3, a4, 12, a5, _, mem_entries.2 ⟨11, a6, rfl⟩, a7⟩

/-- A reachable tree without clashing keys that has two leaves in its main layer and one more layer: the theorems about
neighbours, separators and routing are not about nothing. -/
example : ∃ t : Tree Nat, ReachableNC t ∧ IsLeaf t 0 ∧ ∃ y, t.next 0 = some y ∧ IsLeaf t y ∧ t.prev y = some 0 ∧
    ∃ p, t.parent y = some p ∧ (t.arr p).child 1 = some y ∧ (t.arr p).nkeys = 1 := by
  obtain ⟨t, os, h1, a1, a2, a3, a4, a5, a6, a7, a8⟩ := reachable_of_after sample_legal
    (P := fun t => 4 ≤ t.fresh ∧ t.kind 0 = some .leaf ∧ t.next 0 = some 1 ∧ t.kind 1 = some .leaf ∧ t.prev 1 = some 0 ∧
      t.parent 1 = some 2 ∧ (t.arr 2).child 1 = some 1 ∧ (t.arr 2).nkeys = 1) (by decide +kernel)
  exact ⟨t, ⟨_, os, sample_legal, sample_noClash, h1⟩, ⟨by omega, a2⟩, 1, a3, ⟨by omega, a4⟩, a5, 2, a6, a7, a8⟩

end Verif.Tree
