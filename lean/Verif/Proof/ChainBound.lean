import Verif.Prop.ChainRace
set_option linter.unusedSimpArgs false
set_option linter.unusedVariables false
/-! The slice in slot 0 of a leaf is the leaf's bound. -/
namespace Verif.Chain
open Verif.Internode (upd upd_same upd_ne)
open Verif.Perm (size get)
open Verif.Tree (Leaf Cell)
open Verif.Cas (not_lockable)
variable {V : Type} {fixed : Bool}

/-- In every leaf but the first one that is in the chain or ready to be linked, slot 0 has the bound of the leaf. -/
structure Bound (s : St V) : Prop where
  live : ∀ y, s.live y = true → y ≠ 1 → (s.leaf y).b.ikey 0 = (s.leaf y).lo
  cut : ∀ x y, (s.hold x).cut = some y → (s.leaf y).b.ikey 0 = (s.leaf y).lo

/-- A store to slot 0 leaves the slice that is there, except in the first leaf. -/
def Keeps0 (s : St V) : Act V → Prop
  | .write x t ik _ _ _ => t = 0 → x = 1 ∨ ik = (s.leaf x).b.ikey 0
  | _ => True

theorem Bound.same {s s' : St V} (h : Bound s) {x : Nat} {l : LeafSt V} (hleaf : s'.leaf = upd s.leaf x l) (hlive : s'.live = s.live)
    (hcut : ∀ z, (s'.hold z).cut = (s.hold z).cut) (hi : l.b.ikey 0 = (s.leaf x).b.ikey 0) (hlo : l.lo = (s.leaf x).lo) : Bound s' := by
  have e : ∀ z, (s'.leaf z).b.ikey 0 = (s.leaf z).b.ikey 0 ∧ (s'.leaf z).lo = (s.leaf z).lo := by
    intro z
    rw [hleaf]
    by_cases hz : z = x
    · subst hz; rw [upd_same]; exact ⟨hi, hlo⟩
    · rw [upd_ne _ _ _ hz]; exact ⟨rfl, rfl⟩
  refine ⟨fun y h1 h2 => ?_, fun x y h1 => ?_⟩
  · rw [(e y).1, (e y).2]; exact h.live y (by rw [← hlive]; exact h1) h2
  · rw [(e y).1, (e y).2]; exact h.cut x y (by rw [← hcut]; exact h1)

theorem cut_upd {hold : Nat → HPc} {x : Nat} {p : HPc} (h : p.cut = (hold x).cut) (z : Nat) : (upd hold x p z).cut = (hold z).cut := by
  by_cases e : z = x
  · subst e; rw [upd_same, h]
  · rw [upd_ne _ _ _ e]

theorem Bound.hstep {s : St V} (I : Inv s) (h : Bound s) (x : Nat) : Bound (hstep s x) := by
  unfold Chain.hstep
  cases e : s.hold x with
  | take lv raw sp y j =>
    simp only
    have F := I.frozen x raw sp y (by rw [e]; rfl)
    have N := I.new x y (by rw [e]; rfl)
    split
    · refine ⟨fun z h1 h2 => ?_, fun w z h1 => ?_⟩
      · replace h1 : s.live z = true := h1
        have hy : z ≠ y := by rintro rfl; rw [N.2.2.1] at h1; cases h1
        show (LeafSt.b (upd _ _ _ z)).ikey 0 = LeafSt.lo (upd _ _ _ z)
        by_cases hx : z = x
        · subst hx; rw [upd_same]; exact h.live z h1 h2
        · rw [upd_ne _ _ _ hx, upd_ne _ _ _ hy]; exact h.live z h1 h2
      · replace h1 : (upd s.hold x (.clear lv raw sp y j) w).cut = some z := h1
        rw [cut_upd (by rw [e]; rfl)] at h1
        have hn := cut_new h1
        have hw : w ≠ x := by rintro rfl; rw [e] at h1; cases h1
        have hy : z ≠ y := by rintro rfl; exact hw (I.uniq w x z hn (by rw [e]; rfl))
        show (LeafSt.b (upd _ _ _ z)).ikey 0 = LeafSt.lo (upd _ _ _ z)
        by_cases hx : z = x
        · subst hx; rw [upd_same]; exact h.cut w z h1
        · rw [upd_ne _ _ _ hx, upd_ne _ _ _ hy]; exact h.cut w z h1
    · exact ⟨h.live, fun w z h1 => h.cut w z (by rw [← cut_upd (p := .unfreeze lv raw sp y) (x := x) (by rw [e]; rfl)]; exact h1)⟩
  | clear lv raw sp y j =>
    simp only
    split
    · exact h.same (x := x) rfl rfl (cut_upd (by rw [e]; rfl)) rfl rfl
    · exact ⟨h.live, fun w z h1 => h.cut w z (by rw [← cut_upd (p := .take lv raw sp y (j + 1)) (x := x) (by rw [e]; rfl)]; exact h1)⟩
  | unfreeze lv raw sp y =>
    simp only
    have F := I.frozen x raw sp y (by rw [e]; rfl)
    have ey : (s.leaf y).b.ikey 0 = (s.leaf y).lo := by
      have := F.2.2.2.2.2.2.2.2 sp (Nat.le_refl _) (by rw [e]; exact F.2.2.2.1.1)
      rw [Nat.sub_self] at this
      rw [this, F.2.2.2.2.1]
    have el : ∀ z, (upd (upd s.leaf y { s.leaf y with b := { (s.leaf y).b with perm := Verif.Perm.makeSorted24 (size 5 raw - sp) } })
        x { s.leaf x with b := { (s.leaf x).b with perm := Verif.Perm.setSize 5 raw sp } } z).b.ikey 0 = (s.leaf z).b.ikey 0 ∧
        (upd (upd s.leaf y { s.leaf y with b := { (s.leaf y).b with perm := Verif.Perm.makeSorted24 (size 5 raw - sp) } })
        x { s.leaf x with b := { (s.leaf x).b with perm := Verif.Perm.setSize 5 raw sp } } z).lo = (s.leaf z).lo := by
      intro z
      by_cases hx : z = x
      · subst hx; rw [upd_same]; exact ⟨rfl, rfl⟩
      · rw [upd_ne _ _ _ hx]
        by_cases hy : z = y
        · subst hy; rw [upd_same]; exact ⟨rfl, rfl⟩
        · rw [upd_ne _ _ _ hy]; exact ⟨rfl, rfl⟩
    refine ⟨fun z h1 h2 => ?_, fun w z h1 => ?_⟩
    · have := el z
      exact this.1.trans ((h.live z h1 h2).trans this.2.symm)
    · have := el z
      refine this.1.trans (Eq.trans ?_ this.2.symm)
      replace h1 : (upd s.hold x _ w).cut = some z := h1
      by_cases hw : w = x
      · subst hw; rw [upd_same] at h1; cases h1; exact ey
      · rw [upd_ne _ _ _ hw] at h1; exact h.cut w z h1
  | mark lv y => exact h.same (x := x) rfl rfl (cut_upd (by rw [e]; rfl)) rfl rfl
  | setNext lv y => exact h.same (x := y) rfl rfl (cut_upd (by rw [e]; rfl)) rfl rfl
  | publish lv y =>
    simp only
    have hy : (s.leaf y).b.ikey 0 = (s.leaf y).lo := h.cut x y (by rw [e]; rfl)
    have el : ∀ z, (upd s.leaf x { s.leaf x with nx := y, mark := false } z).b.ikey 0 = (s.leaf z).b.ikey 0 ∧
        (upd s.leaf x { s.leaf x with nx := y, mark := false } z).lo = (s.leaf z).lo := by
      intro z
      by_cases hx : z = x
      · subst hx; rw [upd_same]; exact ⟨rfl, rfl⟩
      · rw [upd_ne _ _ _ hx]; exact ⟨rfl, rfl⟩
    refine ⟨fun z h1 h2 => ?_, fun w z h1 => ?_⟩
    · refine (el z).1.trans (Eq.trans ?_ (el z).2.symm)
      replace h1 : upd s.live y true z = true := h1
      by_cases hz : z = y
      · rw [hz]; exact hy
      · rw [upd_ne _ _ _ hz] at h1; exact h.live z h1 h2
    · refine (el z).1.trans (Eq.trans ?_ (el z).2.symm)
      replace h1 : (upd s.hold x _ w).cut = some z := h1
      by_cases hw : w = x
      · subst hw; rw [upd_same] at h1; cases h1
      · rw [upd_ne _ _ _ hw] at h1; exact h.cut w z h1
  | unlock lv => exact h.same (x := x) rfl rfl (cut_upd (by rw [e]; rfl)) rfl rfl
  | conv lv t q st =>
    refine h.same (x := x) rfl rfl (cut_upd ?_) (by rw [convStore_ikey]) rfl
    rw [e]; unfold convNext; split <;> rfl
  | _ => exact h

/-- The invariant holds after every action that keeps the slice in slot 0. -/
theorem Bound.act {s : St V} (I : Inv s) (h : Bound s) (a : Act V) (ha : Keeps0 s a) : Bound (act fixed s a) := by
  cases a with
  | lock x =>
    simp only [Chain.act]
    split
    · rename_i g
      refine h.same (x := x) rfl rfl (cut_upd ?_) rfl rfl
      have hd : NV.isDirty (s.leaf x).word = false := by
        cases hd : NV.isDirty (s.leaf x).word with
        | false => rfl
        | true => rw [not_lockable hd] at g; cases g.2
      rw [I.free_of_clean hd]; rfl
    · exact h
  | write x t ik kl c sf =>
    simp only [Chain.act]
    split
    · rename_i lv e
      split
      · rename_i hf
        have ho := I.own x (by rw [e]; nofun) (by rw [e]; nofun)
        by_cases hx : x = 1
        · subst hx
          refine ⟨fun y h1 h2 => ?_, fun w y h1 => ?_⟩
          · show (LeafSt.b (upd _ _ _ y)).ikey 0 = LeafSt.lo (upd _ _ _ y)
            rw [upd_ne _ _ _ h2]; exact h.live y h1 h2
          · show (LeafSt.b (upd _ _ _ y)).ikey 0 = LeafSt.lo (upd _ _ _ y)
            have hy : y ≠ 1 := by
              rintro rfl
              have := (I.new w 1 (cut_new h1)).2.2.1
              rw [ho] at this; cases this
            rw [upd_ne _ _ _ hy]; exact h.cut w y h1
        · refine h.same (x := x) rfl rfl (fun _ => rfl) ?_ rfl
          show upd _ t ik 0 = _
          by_cases ht : t = 0
          · subst ht
            rw [upd_same]
            rcases ha rfl with g | g
            · exact absurd g hx
            · exact g
          · rw [upd_ne _ _ _ (fun g => ht g.symm)]
      · exact h
    · exact h
  | publish x pos off =>
    simp only [Chain.act]
    split
    · split
      · exact h.same (x := x) rfl rfl (fun _ => rfl) rfl rfl
      · exact h
    · exact h
  | update x t v =>
    simp only [Chain.act]
    split
    · exact h.same (x := x) rfl rfl (fun _ => rfl) rfl rfl
    · exact h
  | convert x t q =>
    simp only [Chain.act]
    split
    · rename_i lv e
      split
      · exact h.same (x := x) rfl rfl (cut_upd (by rw [e]; rfl)) (by rw [convStore_ikey]) rfl
      · exact h
    · exact h
  | giveUp x =>
    simp only [Chain.act]
    split
    · rename_i lv e
      exact ⟨h.live, fun w z h1 => h.cut w z (by rw [← cut_upd (p := .unlock lv) (x := x) (by rw [e]; rfl)]; exact h1)⟩
    · exact h
  | markSplit x =>
    simp only [Chain.act]
    split
    · rename_i lv e
      exact h.same (x := x) rfl rfl (cut_upd (by rw [e]; rfl)) rfl rfl
    · exact h
  | freeze x sp y =>
    simp only [Chain.act]
    split
    · rename_i lv e
      split
      · rename_i g
        have hu : s.used y = false := g.2.2.2.1
        have hxy : x ≠ y := by
          rintro rfl
          have := I.busy x (by rw [e]; nofun)
          rw [hu] at this; cases this
        refine ⟨fun z h1 h2 => ?_, fun w z h1 => ?_⟩
        · replace h1 : s.live z = true := h1
          have hy : z ≠ y := by rintro rfl; rw [I.used z h1] at hu; cases hu
          show (LeafSt.b (upd _ _ _ z)).ikey 0 = LeafSt.lo (upd _ _ _ z)
          by_cases hx : z = x
          · subst hx; rw [upd_same]; exact h.live z h1 h2
          · rw [upd_ne _ _ _ hx, upd_ne _ _ _ hy]; exact h.live z h1 h2
        · replace h1 : (upd (upd s.hold y _) x _ w).cut = some z := h1
          have hwx : w ≠ x := by rintro rfl; rw [upd_same] at h1; cases h1
          rw [upd_ne _ _ _ hwx] at h1
          have hwy : w ≠ y := by rintro rfl; rw [upd_same] at h1; cases h1
          rw [upd_ne _ _ _ hwy] at h1
          have hy : z ≠ y := by rintro rfl; have := (I.new w z (cut_new h1)).2.2.2.1; rw [hu] at this; cases this
          show (LeafSt.b (upd _ _ _ z)).ikey 0 = LeafSt.lo (upd _ _ _ z)
          by_cases hx : z = x
          · subst hx; rw [upd_same]; exact h.cut w z h1
          · rw [upd_ne _ _ _ hx, upd_ne _ _ _ hy]; exact h.cut w z h1
      · exact h
    · exact h
  | hold x => exact h.hstep I x
  | release y =>
    simp only [Chain.act]
    split
    · rename_i e
      split
      · exact h.same (x := y) rfl rfl (cut_upd (by rw [e]; rfl)) rfl rfl
      · exact h
    · exact h
  | start i x k =>
    simp only [Chain.act]
    split <;> (try split) <;> first | exact h | exact ⟨h.live, h.cut⟩
  | read i => exact ⟨h.live, h.cut⟩

theorem Start.bound {s : St V} (h : Start s) : Bound s :=
  ⟨fun y h1 h2 => absurd ((h.live y).1 h1) h2, fun x y h1 => by rw [h.hold x] at h1; cases h1⟩

theorem lo_upd {f : Nat → LeafSt V} {x : Nat} {l : LeafSt V} (h : l.lo = (f x).lo) (z : Nat) : (upd f x l z).lo = (f z).lo := by
  by_cases e : z = x
  · subst e; rw [upd_same, h]
  · rw [upd_ne _ _ _ e]

theorem lo_hstep {s : St V} (x z : Nat) : ((hstep s x).leaf z).lo = (s.leaf z).lo := by
  unfold hstep
  split
  · split
    · rename_i lv raw sp y j _ _
      show LeafSt.lo (upd (upd s.leaf y _) x _ z) = _
      by_cases e : z = x
      · subst e; rw [upd_same]
      · rw [upd_ne _ _ _ e, lo_upd]; rfl
    · rfl
  · split
    · (refine lo_upd ?_ z; rfl)
    · rfl
  · rename_i lv raw sp y _
    show LeafSt.lo (upd (upd s.leaf y _) x _ z) = _
    by_cases e : z = x
    · subst e; rw [upd_same]
    · rw [upd_ne _ _ _ e, lo_upd]; rfl
  all_goals first | rfl | (refine lo_upd ?_ z; rfl)

/-- The bound of a leaf in the chain never changes. -/
theorem lo_act {s : St V} (I : Inv s) (a : Act V) {z : Nat} (hz : s.live z = true) : ((act fixed s a).leaf z).lo = (s.leaf z).lo := by
  cases a with
  | hold x => exact lo_hstep x z
  | freeze x sp y =>
    simp only [act]
    split
    · rename_i lv eh
      split
      · rename_i g
        have hy : z ≠ y := by rintro rfl; have := I.used z hz; rw [g.2.2.2.1] at this; cases this
        show LeafSt.lo (upd (upd s.leaf y _) x _ z) = _
        rw [lo_upd, upd_ne _ _ _ hy]
        by_cases e : x = y
        · subst e
          have := I.busy x (by rw [eh]; nofun)
          rw [g.2.2.2.1] at this; cases this
        · rw [upd_ne _ _ _ e]
      · rfl
    · rfl
  | _ =>
    simp only [act]
    repeat' split
    all_goals first | rfl | (refine lo_upd ?_ z; rfl)

end Verif.Chain
