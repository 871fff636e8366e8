import Verif.Proof.WholeIndex
import Verif.Proof.ChainRaceStep
set_option linter.unusedSimpArgs false
set_option linter.unusedVariables false
/-! What the steps of the leaves do to ranges, links and locks. -/
namespace Verif.Whole
open Verif.Internode (upd upd_same upd_ne)
open Verif.Perm (size get)
variable {V : Type}

/-- The leaf that an action is about. -/
def target : Chain.Act V → Nat
  | .lock x | .write x _ _ _ _ _ | .publish x _ _ | .update x _ _ | .convert x _ _ | .giveUp x | .markSplit x | .freeze x _ _
  | .hold x | .release x => x
  | .start _ _ _ | .read _ => 0

/-- Somebody has locked the leaf and is not on the way out. -/
def held : Chain.HPc → Bool
  | .free | .newborn | .unlock _ => false
  | _ => true

/-- The leaf has been split and its lock is about to be released. -/
def leaving : Chain.HPc → Bool
  | .newborn | .unlock _ => true
  | _ => false

theorem leaving_held {h : Chain.HPc} (e : leaving h = true) : held h = false := by
  cases h <;> first | rfl | cases e

/-- The step after which a new leaf is in the chain. -/
def links (c : Chain.St V) : Chain.Act V → Bool
  | .hold x => match c.hold x with | .publish _ _ => true | _ => false
  | _ => false

/-- The chain stays as it is. -/
structure Tame (c c' : Chain.St V) (x : Nat) : Prop where
  live : c'.live = c.live
  lo : ∀ z, c.live z = true → (c'.leaf z).lo = (c.leaf z).lo
  nx : ∀ z, c.live z = true → (c'.leaf z).nx = (c.leaf z).nx
  hold : ∀ z, c.live z = true → z ≠ x → c'.hold z = c.hold z

theorem Tame.refl (c : Chain.St V) (x : Nat) : Tame c c x := ⟨rfl, fun _ _ => rfl, fun _ _ => rfl, fun _ _ _ => rfl⟩

/-- One leaf changes, but not its range nor its link. -/
theorem Tame.one {c c' : Chain.St V} {x : Nat} {l : Chain.LeafSt V} (h1 : c'.leaf = upd c.leaf x l) (h2 : l.lo = (c.leaf x).lo) (h3 : l.nx = (c.leaf x).nx)
    (h4 : c'.live = c.live) (h5 : ∀ z, z ≠ x → c'.hold z = c.hold z) : Tame c c' x := by
  refine ⟨h4, ?_, ?_, fun z _ hz => h5 z hz⟩ <;> intro z hz
  all_goals
    rw [h1]
    by_cases e : z = x
    · subst e; rw [upd_same]; assumption
    · rw [upd_ne _ _ _ e]

/-- As before, and a leaf that is not in the chain changes. -/
theorem Tame.two {c c' : Chain.St V} {x y : Nat} {l m : Chain.LeafSt V} (h1 : c'.leaf = upd (upd c.leaf y m) x l) (h2 : l.lo = (c.leaf x).lo)
    (h3 : l.nx = (c.leaf x).nx) (hy : c.live y = false)
    (h4 : c'.live = c.live) (h5 : ∀ z, z ≠ x → z ≠ y → c'.hold z = c.hold z) : Tame c c' x := by
  have ny : ∀ z, c.live z = true → z ≠ y := by intro z hz e; subst e; rw [hy] at hz; cases hz
  refine ⟨h4, ?_, ?_, fun z hl hz => h5 z hz (ny z hl)⟩ <;> intro z hz
  all_goals
    rw [h1]
    by_cases e : z = x
    · subst e; rw [upd_same]; assumption
    · rw [upd_ne _ _ _ e, upd_ne _ _ _ (ny z hz)]

theorem tame {c : Chain.St V} (h : Chain.Inv c) (fixed : Bool) (a : Chain.Act V) (hl : links c a = false) :
    Tame c (Chain.act fixed c a) (target a) := by
  have R : ∀ x, Tame c c x := Tame.refl c
  have K : ∀ {x : Nat} {v : Chain.HPc} (z : Nat), z ≠ x → upd c.hold x v z = c.hold z := fun z hz => upd_ne _ _ _ hz
  have N : ∀ {x y : Nat}, (c.hold x).new = some y → c.live y = false := fun e => (h.new _ _ e).2.2.1
  cases a with
  | lock x =>
    simp only [Chain.act]
    split
    · exact Tame.one (l := { c.leaf x with word := _ }) rfl rfl rfl rfl (fun z hz => K z hz)
    · exact R _
  | write x t ik kl cl sf =>
    simp only [Chain.act]
    split
    · split
      · exact Tame.one (l := { c.leaf x with b := _ }) rfl rfl rfl rfl (fun z hz => rfl)
      · exact R _
    · exact R _
  | publish x pos off =>
    simp only [Chain.act]
    split
    · split
      · exact Tame.one (l := { c.leaf x with b := _ }) rfl rfl rfl rfl (fun z hz => rfl)
      · exact R _
    · exact R _
  | update x t v =>
    simp only [Chain.act]
    split
    · exact Tame.one (l := { c.leaf x with b := _ }) rfl rfl rfl rfl (fun z hz => rfl)
    · exact R _
  | convert x t q =>
    simp only [Chain.act]
    split
    · split
      · exact Tame.one (l := { c.leaf x with b := _ }) rfl rfl rfl rfl (fun z hz => K z hz)
      · exact R _
    · exact R _
  | giveUp x =>
    simp only [Chain.act]
    split
    · exact ⟨rfl, fun _ _ => rfl, fun _ _ => rfl, fun z _ hz => K z hz⟩
    · exact R _
  | markSplit x =>
    simp only [Chain.act]
    split
    · exact Tame.one (l := { c.leaf x with word := _ }) rfl rfl rfl rfl (fun z hz => K z hz)
    · exact R _
  | freeze x sp y =>
    simp only [Chain.act]
    split
    · split
      · rename_i hc
        refine Tame.two (y := y) (l := { c.leaf x with b := _ }) rfl rfl rfl ?_ rfl (fun z hz hy => ?_)
        · cases e : c.live y with
          | false => rfl
          | true => rw [h.used y e] at hc; exact absurd hc.2.2.2.1 (by simp)
        · have hz : z ≠ x := hz
          show upd (upd c.hold y _) x _ z = _
          rw [upd_ne _ _ _ hz, upd_ne _ _ _ hy]
      · exact R _
    · exact R _
  | hold x =>
    simp only [links] at hl
    show Tame c (Chain.hstep c x) x
    unfold Chain.hstep
    split
    · rename_i e
      split
      · exact Tame.two (l := { c.leaf x with b := _ }) rfl rfl rfl (N (x := x) (by rw [e]; rfl)) rfl (fun z hz hy => K z hz)
      · exact ⟨rfl, fun _ _ => rfl, fun _ _ => rfl, fun z _ hz => K z hz⟩
    · split
      · exact Tame.one (l := { c.leaf x with b := _ }) rfl rfl rfl rfl (fun z hz => K z hz)
      · exact ⟨rfl, fun _ _ => rfl, fun _ _ => rfl, fun z _ hz => K z hz⟩
    · rename_i e
      exact Tame.two (l := { c.leaf x with b := _ }) rfl rfl rfl (N (x := x) (by rw [e]; rfl)) rfl (fun z hz hy => K z hz)
    · exact Tame.one (l := { c.leaf x with mark := _ }) rfl rfl rfl rfl (fun z hz => K z hz)
    · rename_i y e
      have hy := N (x := x) (y := y) (by rw [e]; rfl)
      have ny : ∀ z, c.live z = true → z ≠ y := by intro z hz e; subst e; rw [hy] at hz; cases hz
      refine ⟨rfl, fun z hz => ?_, fun z hz => ?_, fun z _ hz => K z hz⟩
      · show Chain.LeafSt.lo (upd c.leaf y _ z) = _
        rw [upd_ne _ _ _ (ny z hz)]
      · show Chain.LeafSt.nx (upd c.leaf y _ z) = _
        rw [upd_ne _ _ _ (ny z hz)]
    · rename_i e
      simp [e] at hl
    · exact Tame.one (l := { c.leaf x with word := _ }) rfl rfl rfl rfl (fun z hz => K z hz)
    · exact Tame.one (l := { c.leaf x with b := _ }) rfl rfl rfl rfl (fun z hz => K z hz)
    · exact R _
  | release y =>
    simp only [Chain.act]
    split
    · split
      · exact Tame.one (l := { c.leaf y with word := _ }) rfl rfl rfl rfl (fun z hz => K z hz)
      · exact R _
    · exact R _
  | start i x k =>
    simp only [Chain.act]
    split
    · split
      · exact ⟨rfl, fun _ _ => rfl, fun _ _ => rfl, fun _ _ _ => rfl⟩
      · exact R _
    · split
      · exact ⟨rfl, fun _ _ => rfl, fun _ _ => rfl, fun _ _ _ => rfl⟩
      · exact R _
    · exact R _
  | read i => exact ⟨rfl, fun _ _ => rfl, fun _ _ => rfl, fun _ _ _ => rfl⟩

/-- What an owner does leaves the leaf held. -/
def working : Chain.Act V → Bool
  | .write _ _ _ _ _ _ | .publish _ _ _ | .update _ _ _ | .convert _ _ _ | .markSplit _ | .freeze _ _ _ | .hold _ => true
  | _ => false

theorem held_act {c : Chain.St V} (fixed : Bool) (a : Chain.Act V) (hl : links c a = false) (hw : working a = true)
    (hh : held (c.hold (target a)) = true) : held ((Chain.act fixed c a).hold (target a)) = true := by
  cases a with
  | lock x => cases hw
  | giveUp x => cases hw
  | release x => cases hw
  | start i x k => cases hw
  | read i => cases hw
  | write x t ik kl cl sf =>
    simp only [Chain.act, target] at hh ⊢
    split
    · split <;> exact hh
    · exact hh
  | publish x pos off =>
    simp only [Chain.act, target] at hh ⊢
    split
    · split <;> exact hh
    · exact hh
  | update x t v =>
    simp only [Chain.act, target] at hh ⊢
    split <;> exact hh
  | convert x t q =>
    simp only [Chain.act, target] at hh ⊢
    split
    · split
      · show held (upd c.hold x _ x) = true
        rw [upd_same]; rfl
      · exact hh
    · exact hh
  | markSplit x =>
    simp only [Chain.act, target] at hh ⊢
    split
    · show held (upd c.hold x _ x) = true
      rw [upd_same]; rfl
    · exact hh
  | freeze x sp y =>
    simp only [Chain.act, target] at hh ⊢
    split
    · split
      · show held (upd (upd c.hold y _) x _ x) = true
        rw [upd_same]; rfl
      · exact hh
    · exact hh
  | hold x =>
    simp only [links, target] at hl hh ⊢
    show held ((Chain.hstep c x).hold x) = true
    unfold Chain.hstep
    split
    · split <;> (show held (upd c.hold x _ x) = true) <;> rw [upd_same] <;> rfl
    · split <;> (show held (upd c.hold x _ x) = true) <;> rw [upd_same] <;> rfl
    · show held (upd c.hold x _ x) = true
      rw [upd_same]; rfl
    · show held (upd c.hold x _ x) = true
      rw [upd_same]; rfl
    · show held (upd c.hold x _ x) = true
      rw [upd_same]; rfl
    · rename_i e
      simp [e] at hl
    · rename_i e
      rw [e] at hh; cases hh
    · show held (upd c.hold x _ x) = true
      rw [upd_same]; unfold Chain.convNext; split <;> rfl
    · exact hh

end Verif.Whole
