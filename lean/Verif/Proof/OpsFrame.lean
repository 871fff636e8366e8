import Verif.Spec.Ops
import Verif.Proof.Whole
set_option linter.unusedSimpArgs false
set_option linter.unusedVariables false
/-! What the steps of other threads leave as it is. -/
namespace Verif.Whole
open Verif.Internode (upd upd_same upd_ne)
variable {V : Type} {fixed strict : Bool}

/-- The thread that makes a step in a layer. -/
def LAct.who : LAct V → Option Nat
  | .call i _ _ | .walk i | .enter i | .read i | .step i | .write i _ _ _ _ _ | .publish i _ _ | .update i _ _ | .finish i | .split i
  | .freeze i _ _ | .hold i => some i
  | .unlock _ | .release _ => none

/-- The thread that makes a step. -/
def Act.who : Act V → Option Nat
  | .inLayer _ a => a.who
  | .convert _ i _ _ _ _ => some i

/-- A step changes one leaf, and one that is not in the chain. -/
theorem chain_frame {c : Chain.St V} (h : Chain.Inv c) (fixed : Bool) (b : Chain.Act V) {x : Nat} (hl : c.live x = true) (hx : target b ≠ x) :
    (Chain.act fixed c b).leaf x = c.leaf x ∧ (Chain.act fixed c b).hold x = c.hold x := by
  have hx' := Ne.symm hx
  cases b with
  | lock z => simp only [Chain.act, target] at hx' ⊢; split <;> simp [upd_ne _ _ _ hx']
  | write z t ik kl cl sf => simp only [Chain.act, target] at hx' ⊢; repeat' split
                             all_goals simp [upd_ne _ _ _ hx']
  | publish z pos off => simp only [Chain.act, target] at hx' ⊢; repeat' split
                         all_goals simp [upd_ne _ _ _ hx']
  | update z t v => simp only [Chain.act, target] at hx' ⊢; repeat' split
                    all_goals simp [upd_ne _ _ _ hx']
  | convert z t q => simp only [Chain.act, target] at hx' ⊢; repeat' split
                     all_goals simp [upd_ne _ _ _ hx']
  | giveUp z => simp only [Chain.act, target] at hx' ⊢; repeat' split
                all_goals simp [upd_ne _ _ _ hx']
  | markSplit z => simp only [Chain.act, target] at hx' ⊢; repeat' split
                   all_goals simp [upd_ne _ _ _ hx']
  | freeze z sp y =>
    simp only [Chain.act, target] at hx' ⊢
    split
    · split
      · rename_i g
        have : x ≠ y := by rintro rfl; have := h.used _ hl; rw [g.2.2.2.1] at this; cases this
        simp [upd_ne _ _ _ hx', upd_ne _ _ _ this]
      · exact ⟨rfl, rfl⟩
    · exact ⟨rfl, rfl⟩
  | hold z =>
    simp only [target] at hx'
    have hn : ∀ y, (c.hold z).new = some y → x ≠ y := by
      rintro y g rfl; have := (h.new z _ g).2.2.1; rw [hl] at this; cases this
    show (Chain.hstep c z).leaf x = _ ∧ (Chain.hstep c z).hold x = _
    unfold Chain.hstep
    split
    · rename_i e; have := hn _ (by rw [e]; rfl)
      split <;> simp [upd_ne _ _ _ hx', upd_ne _ _ _ this]
    · split <;> simp [upd_ne _ _ _ hx']
    · rename_i e; have := hn _ (by rw [e]; rfl)
      simp [upd_ne _ _ _ hx', upd_ne _ _ _ this]
    · simp [upd_ne _ _ _ hx']
    · rename_i e; have := hn _ (by rw [e]; rfl)
      simp [upd_ne _ _ _ hx', upd_ne _ _ _ this]
    · simp [upd_ne _ _ _ hx']
    · simp [upd_ne _ _ _ hx']
    · simp [upd_ne _ _ _ hx']
    · exact ⟨rfl, rfl⟩
  | release z => simp only [Chain.act, target] at hx' ⊢; repeat' split
                 all_goals simp [upd_ne _ _ _ hx']
  | start j z k => simp only [Chain.act]; repeat' split
                   all_goals simp
  | read j => simp only [Chain.act]; simp

/-- Lookups of other threads. -/
theorem chain_rd {c : Chain.St V} (fixed : Bool) (b : Chain.Act V) (i : Nat) (h1 : b ≠ .read i) (h2 : ∀ x k, b ≠ .start i x k) :
    (Chain.act fixed c b).rd i = c.rd i := by
  cases b with
  | start j z k =>
    have : i ≠ j := by rintro rfl; exact h2 _ _ rfl
    simp only [Chain.act]; repeat' split
    all_goals simp [upd_ne _ _ _ this]
  | read j =>
    have : i ≠ j := by rintro rfl; exact h1 rfl
    simp [Chain.act, upd_ne _ _ _ this]
  | hold z => show (Chain.hstep c z).rd i = _; unfold Chain.hstep; repeat' split
              all_goals rfl
  | lock z => simp only [Chain.act]; repeat' split
              all_goals rfl
  | write z t ik kl cl sf => simp only [Chain.act]; repeat' split
                             all_goals rfl
  | publish z pos off => simp only [Chain.act]; repeat' split
                         all_goals rfl
  | update z t v => simp only [Chain.act]; repeat' split
                    all_goals rfl
  | convert z t q => simp only [Chain.act]; repeat' split
                     all_goals rfl
  | giveUp z => simp only [Chain.act]; repeat' split
                all_goals rfl
  | markSplit z => simp only [Chain.act]; repeat' split
                   all_goals rfl
  | freeze z sp y => simp only [Chain.act]; repeat' split
                     all_goals rfl
  | release z => simp only [Chain.act]; repeat' split
                 all_goals rfl

/-- An insert that owns its leaf. -/
theorem onLeaves_target {l : Lay V} {main : Bool} (h : LOk main l) {a : LAct V} {b : Chain.Act V} (e : onLeaves l a = some b) {i x : Nat}
    (hw : a.who ≠ some i) (ho : l.s.owns i = some x) : target b ≠ x ∨ ∀ fixed, Chain.act fixed l.c b = l.c := by
  obtain ⟨hp, hg⟩ := owns_some ho
  have gi : (l.s.ins i).grip = some x := by rw [hg]; rfl
  have hh := h.grip hp gi
  have x0 : x ≠ 0 := by rintro rfl; rw [h.C.zero] at hh; cases hh.1
  have other : ∀ j z, some j ≠ some i → l.s.owns j = some z → z ≠ x := by
    rintro j z hj hz rfl
    obtain ⟨hp', hg'⟩ := owns_some hz
    exact hj (by rw [h.excl j i _ hp' hp (by rw [hg']; rfl) gi])
  cases a with
  | call => cases e
  | walk => cases e
  | enter j =>
    simp only [onLeaves] at e
    split at e <;> first | cases e | skip
    · exact .inl x0.symm
    · exact .inl x0.symm
  | read j => cases e; exact .inl x0.symm
  | step j =>
    simp only [onLeaves] at e
    split at e
    · rename_i z _ _
      split at e
      · cases e
        rename_i hk
        refine .inl ?_
        rintro rfl
        rw [show l.c.hold (target (.lock z : Chain.Act V)) = .free from free_of_lockable h.C hk] at hh; cases hh.2
      · cases e
    · rename_i o r n z g1 g2
      split at e
      · cases e
        refine .inl ?_
        rintro rfl
        exact hw (by rw [show LAct.who (.step j : LAct V) = some j from rfl, h.excl j i _ ⟨_, _, _, g1⟩ hp (by rw [g2]; rfl) gi])
      · cases e
    · cases e
  | write j t ik kl cl sf =>
    simp only [onLeaves, Option.map_eq_some_iff] at e
    obtain ⟨z, hz, rfl⟩ := e
    exact .inl (other j z hw hz)
  | publish j pos off =>
    simp only [onLeaves] at e
    split at e
    · rename_i z hz
      split at e
      · cases e; exact .inl (other j z hw hz)
      · cases e
    · cases e
  | update j t v =>
    simp only [onLeaves, Option.map_eq_some_iff] at e
    obtain ⟨z, hz, rfl⟩ := e
    exact .inl (other j z hw hz)
  | finish j =>
    simp only [onLeaves] at e
    split at e
    · rename_i z hz
      split at e
      · cases e; exact .inl (other j z hw hz)
      · cases e
    · cases e
  | split j =>
    simp only [onLeaves, Option.map_eq_some_iff] at e
    obtain ⟨z, hz, rfl⟩ := e
    exact .inl (other j z hw hz)
  | freeze j sp y =>
    simp only [onLeaves, Option.map_eq_some_iff] at e
    obtain ⟨z, hz, rfl⟩ := e
    exact .inl (other j z hw hz)
  | hold j =>
    simp only [onLeaves, Option.map_eq_some_iff] at e
    obtain ⟨z, hz, rfl⟩ := e
    exact .inl (other j z hw hz)
  | unlock z =>
    simp only [onLeaves] at e
    split at e
    · rename_i g
      split at e
      · cases e
        refine .inl ?_
        rintro rfl
        rw [show l.c.hold (target (.hold z : Chain.Act V)) = _ from g] at hh; cases hh.2
      · cases e
    · cases e
  | release y =>
    simp only [onLeaves] at e
    split at e
    · cases e
      by_cases ey : y = x
      · subst ey
        right; intro f
        simp only [Chain.act]
        split
        · rename_i g; rw [g] at hh; cases hh.2
        · rfl
      · exact .inl ey
    · cases e

/-- Where other threads are. -/
theorem beside_other {l : Lay V} {main : Bool} (a : LAct V) {i : Nat} (hw : a.who ≠ some i) :
    (beside strict main l a).ix.pc i = l.s.ix.pc i ∧ (beside strict main l a).ins i = l.s.ins i ∧ (beside strict main l a).key i = l.s.key i := by
  cases a with
  | call j k put =>
    have e : i ≠ j := by rintro rfl; exact hw rfl
    simp only [beside]
    split
    · rename_i g; simp [Index.act, g, upd_ne _ _ _ e]
    · rename_i g; simp [Index.act, g, upd_ne _ _ _ e]
    · exact ⟨rfl, rfl, rfl⟩
  | walk j =>
    have e : i ≠ j := by rintro rfl; exact hw rfl
    simp only [beside]; split
    · simp [Index.act, upd_ne _ _ _ e]
    · exact ⟨rfl, rfl, rfl⟩
  | enter j =>
    have e : i ≠ j := by rintro rfl; exact hw rfl
    simp only [beside]; split <;> simp [Side.goto, Side.move, upd_ne _ _ _ e]
  | step j =>
    have e : i ≠ j := by rintro rfl; exact hw rfl
    simp only [beside]; repeat' split
    all_goals simp [Side.goto, Side.move, upd_ne _ _ _ e]
  | finish j =>
    have e : i ≠ j := by rintro rfl; exact hw rfl
    simp only [beside]; repeat' split
    all_goals simp [Side.goto, Side.move, upd_ne _ _ _ e]
  | hold j =>
    have e : i ≠ j := by rintro rfl; exact hw rfl
    simp only [beside]; repeat' split
    all_goals first | exact ⟨rfl, rfl, rfl⟩ | skip
    simp only [link]; split
    · simp [upd_ne _ _ _ e]
    · exact ⟨rfl, rfl, rfl⟩
  | _ => exact ⟨rfl, rfl, rfl⟩

/-- What the steps of others do not change for thread `i`. -/
structure Frame (s s' : St V) (i : Nat) : Prop where
  pc : ∀ L, (s'.side L).ix.pc i = (s.side L).ix.pc i
  ins : ∀ L, (s'.side L).ins i = (s.side L).ins i
  key : ∀ L, (s'.side L).key i = (s.side L).key i
  rd : ∀ L, s.f.made L = true → (s'.f.layer L).rd i = (s.f.layer L).rd i
  new : ∀ L, s.f.made L = false → s'.f.made L = true → (s'.f.layer L).rd i = .idle
  made : ∀ L, s.f.made L = true → s'.f.made L = true
  pre : ∀ L, s.f.made L = true → s'.f.pre L = s.f.pre L
  up : ∀ L, s.f.up L = true → s'.f.up L = true
  job : ∀ q, s.f.made q = true → s'.f.job q = s.f.job q
  own : ∀ L x, s.f.made L = true → (s.side L).owns i = some x → (s'.f.layer L).leaf x = (s.f.layer L).leaf x ∧ (s'.f.layer L).hold x = (s.f.layer L).hold x

theorem Frame.refl (s : St V) (i : Nat) : Frame s s i :=
  ⟨fun _ => rfl, fun _ => rfl, fun _ => rfl, fun _ _ => rfl, fun L h h' => absurd h' (by rw [h]; exact Bool.false_ne_true), fun _ h => h, fun _ _ => rfl, fun _ h => h, fun _ _ => rfl,
    fun _ _ _ _ => ⟨rfl, rfl⟩⟩

/-- New layers. -/
theorem convert_new {s : Forest.St V} {fixed : Bool} {L x t : Nat} {d : Spec.Bytes} {v : V} {qs : List Nat} (i : Nat) :
    ∀ z, s.made z = false → (Forest.act fixed s (.convert L x t d v qs)).made z = true → s.made L = true →
      ((Forest.act fixed s (.convert L x t d v qs)).layer z).rd i = .idle := by
  intro z hz hm hL
  simp only [Forest.act] at hm ⊢
  split at hm
  · rename_i bs hcf
    simp only [hcf]
    have : z ≠ L := by rintro rfl; rw [hz] at hL; cases hL
    rw [show upd _ L _ z = _ from upd_ne _ _ _ this]
    rcases Bool.or_eq_true _ _ ▸ hm with g | g
    · rw [hz] at g; cases g
    · rw [if_pos (List.contains_iff_mem.1 g)]; rfl
  · rw [hz] at hm; cases hm

theorem frame {s : St V} (h : WOk s) (a : Act V) (hc : ∀ L i, a = .inLayer L (.walk i) → Index.Calm strict (s.side L).ix i)
    (hf : ∀ L i, ¬ Index.Failed ((act fixed strict s a).side L).ix i) {i : Nat} (hw : a.who ≠ some i) : Frame s (act fixed strict s a) i := by
  have hs := (h.act (fixed := fixed) (strict := strict) a hc hf).2
  cases a with
  | inLayer L a =>
    by_cases hu : s.f.up L = true
    · have K := h.ok L (h.basic.made L hu)
      have B := beside_other (strict := strict) (main := L == 0) (l := s.lay L) a hw
      have side : ∀ z, (act fixed strict s (.inLayer L a)).side z = if z = L then beside strict (L == 0) (s.lay L) a else s.side z := by
        intro z; simp only [act, if_pos hu]; rfl
      have sd : ∀ z, (((act fixed strict s (.inLayer L a)).side z).ix.pc i = (s.side z).ix.pc i) ∧
          (((act fixed strict s (.inLayer L a)).side z).ins i = (s.side z).ins i) ∧ (((act fixed strict s (.inLayer L a)).side z).key i = (s.side z).key i) := by
        intro z
        rw [side]
        split
        · rename_i e; subst e; exact B
        · exact ⟨rfl, rfl, rfl⟩
      cases e : onLeaves (s.lay L) a with
      | none =>
        rw [show onForest s (.inLayer L a) = none by simp only [onForest, if_pos hu, e]; rfl] at hs
        simp only at hs
        refine ⟨fun z => (sd z).1, fun z => (sd z).2.1, fun z => (sd z).2.2, ?_, ?_, ?_, ?_, ?_, ?_, ?_⟩ <;> rw [hs]
        · exact fun _ _ => rfl
        · intro z h1 h2; rw [h1] at h2; cases h2
        · exact fun _ h => h
        · exact fun _ _ => rfl
        · exact fun _ h => h
        · exact fun _ _ => rfl
        · exact fun _ _ _ _ => ⟨rfl, rfl⟩
      | some b =>
        rw [show onForest s (.inLayer L a) = some (.inLayer L b) by simp only [onForest, if_pos hu, e]; rfl] at hs
        simp only [Forest.act, if_pos (show s.f.up L = true ∧ Forest.plain b = true from ⟨hu, onLeaves_plain e⟩)] at hs
        have rd : (Chain.act fixed (s.f.layer L) b).rd i = (s.f.layer L).rd i := by
          refine chain_rd fixed b i ?_ ?_
          · rintro rfl
            cases a with
            | read j => cases e; exact hw rfl
            | call => cases e
            | walk => cases e
            | _ => simp only [onLeaves] at e; (repeat' split at e) <;> simp at e
          · rintro x k rfl
            cases a with
            | enter j =>
              simp only [onLeaves] at e
              split at e <;> simp only [Option.some.injEq, Chain.Act.start.injEq, reduceCtorEq] at e <;> exact hw (by rw [← e.1]; rfl)
            | call => cases e
            | walk => cases e
            | read => cases e
            | _ => simp only [onLeaves] at e; (repeat' split at e) <;> simp at e
        refine ⟨fun z => (sd z).1, fun z => (sd z).2.1, fun z => (sd z).2.2, ?_, ?_, ?_, ?_, ?_, ?_, ?_⟩ <;> rw [hs]
        · intro z _
          show (upd s.f.layer L _ z).rd i = _
          by_cases ez : z = L
          · subst ez; rw [upd_same]; exact rd
          · rw [upd_ne _ _ _ ez]
        · intro z h1 h2; rw [h1] at h2; cases h2
        · exact fun _ h => h
        · exact fun _ _ => rfl
        · intro z hz; show (s.f.up z || _) = true; rw [hz]; rfl
        · exact fun _ _ => rfl
        · intro z x _ ho
          show (upd s.f.layer L _ z).leaf x = _ ∧ (upd s.f.layer L _ z).hold x = _
          by_cases ez : z = L
          · subst ez
            rw [upd_same]
            rcases onLeaves_target K e hw ho with g | g
            · obtain ⟨hp, hg⟩ := owns_some ho
              exact chain_frame K.C fixed b (K.grip hp (by show ((s.side z).ins i).grip = _; rw [hg]; rfl)).1 g
            · rw [show s.f.layer z = (s.lay z).c from rfl, g]; exact ⟨rfl, rfl⟩
          · rw [upd_ne _ _ _ ez]; exact ⟨rfl, rfl⟩
    · simp only [act, if_neg hu]; exact Frame.refl s i
  | convert L j t d v qs =>
    simp only [onForest, act] at hs ⊢
    cases ho : (s.side L).owns j with
    | none => exact Frame.refl s i
    | some x =>
      simp only [ho] at hs ⊢
      by_cases hk : (s.side L).key j = Forest.keyIn (s.f.pre L) d
      · simp only [if_pos hk] at hs ⊢
        have hup : s.f.up L = true := by
          cases e : s.f.up L with
          | true => rfl
          | false => obtain ⟨⟨o, r, n, hp⟩, _⟩ := owns_some ho; rw [h.unused L e] at hp; cases hp
        have hL := h.basic.made L hup
        have K := h.ok L hL
        refine ⟨fun _ => rfl, fun _ => rfl, fun _ => rfl, ?_, ?_, fun z hz => Forest.made_act _ hz, fun z hz => Forest.pre_act _ hz,
          fun z hz => Forest.up_act _ hz, ?_, ?_⟩
        · intro z hz
          show ((Forest.act fixed s.f (.convert L x t d v qs)).layer z).rd i = _
          rw [Forest.layer_act _ hz]
          split
          · rfl
          · rename_i c hin
            refine chain_rd fixed c i ?_ ?_ <;> (try intro x k) <;> rintro rfl <;> simp only [Forest.inner] at hin <;> split at hin <;> cases hin
        · intro z h1 h2; exact convert_new i z h1 h2 hL
        · intro q hq
          show (Forest.act fixed s.f (.convert L x t d v qs)).job q = _
          simp only [Forest.act]
          split
          · rename_i bs hcf
            obtain ⟨lv, ev, es, c⟩ := Forest.conflict_conf hcf
            have : q ≠ qs.headD 0 := by
              rintro rfl
              have hm : qs.headD 0 ∈ qs := by
                cases qs with
                | nil => exact absurd rfl c.some
                | cons a as => exact List.mem_cons_self ..
              rw [c.new _ hm] at hq; cases hq
            exact upd_ne _ _ _ this
          · rfl
        · intro z y hz hy
          show ((Forest.act fixed s.f (.convert L x t d v qs)).layer z).leaf y = _ ∧ ((Forest.act fixed s.f (.convert L x t d v qs)).layer z).hold y = _
          rw [Forest.layer_act _ hz]
          split
          · exact ⟨rfl, rfl⟩
          · rename_i c hin
            simp only [Forest.inner] at hin
            split at hin
            · rename_i g
              cases hin
              obtain ⟨rfl, _⟩ := g
              obtain ⟨hp, hg⟩ := owns_some ho
              obtain ⟨hp', hg'⟩ := owns_some hy
              refine chain_frame K.C fixed _ (K.grip hp' (by show ((s.side L).ins i).grip = _; rw [hg']; rfl)).1 ?_
              show x ≠ y
              rintro rfl
              exact hw (by rw [show Act.who (.convert L j t d v qs : Act V) = some j from rfl,
                K.excl j i x hp hp' (by show ((s.side L).ins j).grip = _; rw [hg]; rfl) (by show ((s.side L).ins i).grip = _; rw [hg']; rfl)])
            · cases hin
      · simp only [if_neg hk]; exact Frame.refl s i

end Verif.Whole
