import Verif.Proof.OpsStep
import Verif.Proof.TreeBody
import Verif.Proof.StoreSim
set_option linter.unusedSimpArgs false
set_option linter.unusedVariables false
/-! What an insert does in the leaf it has locked. -/
namespace Verif.Ops
open Verif.Internode (upd upd_same upd_ne)
open Verif.Perm (size get)
open Verif.Spec (Bytes)
open Verif.Tree (Leaf Cell searchKlx searchForInsert PermOK)
open Verif.Forest (Under keyIn)
open Verif.Race (SlotIs)
open Verif.Chain (setSlot freeSlot)
open Verif.Whole (Inside isLocked Frame WOk LAct onLeaves beside raw lact onForest inIndex)
variable {V : Type} {fixed strict : Bool}

/-- The search under the lock has found nothing. -/
theorem gap_of {b : Leaf V} {k : Key} {pos : Nat} (hg : ∀ j, j < size 5 b.perm → Chain.Good b (get 5 b.perm j))
    (hs : ∀ i j, i < j → j < size 5 b.perm → b.ikey (get 5 b.perm i) ≤ b.ikey (get 5 b.perm j))
    (h : searchForInsert b k 0 (size 5 b.perm) = .notFound pos) : Gap b k pos := by
  have sp := Tree.searchForInsert_spec b k (size 5 b.perm) 0
  rw [h] at sp
  obtain ⟨_, h2, h3, h4⟩ := sp
  have right : ∀ j, j < size 5 b.perm → pos ≤ j → k.ikey < b.ikey (get 5 b.perm j) := by
    intro j hj hp
    have := h4 (by omega)
    by_cases e : j = pos
    · rw [e]; exact this
    · have := hs pos j (by omega) hj; omega
  refine ⟨by omega, fun j hj => (h3 j (Nat.zero_le _) hj).1, fun j hj hp => Nat.le_of_lt (right j hj hp), fun j hj hc => ?_⟩
  by_cases hp : j < pos
  · have := (h3 j (Nat.zero_le _) hp).2 hc.1
    have g := hg j hj
    have c2 := hc.2
    unfold Tree.SkipOK Tree.Leaf.ent at this
    have e1 : (Tree.entAt b (get 5 b.perm j)).cell = b.cell (get 5 b.perm j) := rfl
    have e2 : (Tree.entAt b (get 5 b.perm j)).klx = b.klx (get 5 b.perm j) := rfl
    rw [e1, e2] at this
    unfold Chain.cls at c2
    have hk := Tree.searchKlx_cases k
    have h128 : Tree.layerKeylenx = 128 := rfl
    rw [h128] at this
    rcases this with t | ⟨t1, t2⟩ | ⟨t1, t2, t3⟩
    · rcases g with ⟨⟨v, gv⟩, _⟩ | ⟨⟨q, gq⟩, _⟩
      · rw [gv] at t; cases t
      · rw [gq] at t; cases t
    · rcases hk with ⟨a1, a2, _⟩ | ⟨a1, a2, a3, _⟩
      · rw [t2] at a1; cases a1
      · rw [a2, if_pos (by omega), if_neg (by omega)] at c2; omega
    · rcases g with ⟨_, g | g⟩ | ⟨_, g, _⟩
      · rcases hk with ⟨a1, a2, _⟩ | ⟨a1, a2, a3, _⟩
        · rw [a2, if_neg (by omega), if_pos (by omega)] at c2; omega
        · rw [a2, if_neg (by omega), if_neg (by omega)] at c2; omega
      · rcases hk with ⟨a1, a2, _⟩ | ⟨a1, a2, a3, _⟩
        · exact t3 ⟨g.1, a1⟩
        · rw [a2, if_pos (by omega), if_neg (by omega)] at c2; omega
      · omega
  · have := right j hj (by omega)
    omega

theorem Gap.setSlot {b : Leaf V} {k : Key} {pos t ik kl : Nat} {c : Cell V} {sf : Option Bytes} (h : Gap b k pos)
    (ht : ∀ j, j < size 5 b.perm → get 5 b.perm j ≠ t) : Gap (setSlot b t ik kl c sf) k pos := by
  refine ⟨h.le, fun j hj => ?_, fun j hj hp => ?_, fun j hj hc => ?_⟩
  · have := h.left j hj
    show upd b.ikey t ik (get 5 b.perm j) ≤ _
    rw [upd_ne _ _ _ (ht j (Nat.lt_of_lt_of_le hj h.le))]; exact this
  · show _ ≤ upd b.ikey t ik _
    have hj : j < size 5 b.perm := hj
    rw [show (Chain.setSlot b t ik kl c sf).perm = b.perm from rfl, upd_ne _ _ _ (ht j hj)]; exact h.right j hj hp
  · have hj : j < size 5 b.perm := hj
    refine h.new j hj ?_
    have h1 : upd b.ikey t ik (get 5 b.perm j) = _ := hc.1
    have h2 : Chain.cls (upd b.klx t kl (get 5 b.perm j)) = _ := hc.2
    rw [upd_ne _ _ _ (ht j hj)] at h1 h2
    exact ⟨h1, h2⟩

/-- A slot at the back is not in use. -/
theorem back_free {p : BitVec 128} (h : PermOK p) {off : Nat} (ho : off < 24 - size 5 p) : ∀ j, j < size 5 p → get 5 p j ≠ get 5 p (23 - off) := by
  intro j hj e
  have := h.inj j (23 - off) (by omega) (by omega) e
  omega

theorem findAlt_ne {p : BitVec 128} : ∀ {n off t o : Nat}, Tree.findAlt p off n = some (t, o) → t ≠ 0
  | 0, off, t, o, h => by cases h
  | n + 1, off, t, o, h => by
    simp only [Tree.findAlt] at h
    split at h
    · rename_i g; cases h; exact g
    · exact findAlt_ne h

/-- With slot 0 at the back, no other free slot is found only if there is none. -/
theorem findAlt_none {p : BitVec 128} (h : PermOK p) (hb : Perm.back 5 24 p = 0) (ha : Tree.findAlt p 1 (Tree.leafWidth - size 5 p - 1) = none) : 22 ≤ size 5 p := by
  refine Nat.le_of_not_lt fun hlt => ?_
  obtain ⟨k, hk⟩ : ∃ k, Tree.leafWidth - size 5 p - 1 = k + 1 := ⟨24 - size 5 p - 2, by show 24 - size 5 p - 1 = _; omega⟩
  rw [hk] at ha
  simp only [Tree.findAlt] at ha
  split at ha
  · cases ha
  · rename_i g
    have g : get 5 p 22 = 0 := Classical.byContradiction fun g' => g g'
    have hb : get 5 p 23 = 0 := hb
    have := h.inj 22 23 (by omega) (by omega) (g.trans hb.symm)
    omega

/-- At most ten keys of a leaf have the same slice. -/
theorem group_le {b : Leaf V} (hg : ∀ j, j < size 5 b.perm → Chain.Good b (get 5 b.perm j))
    (ht : ∀ i j, i < j → j < size 5 b.perm → ¬ Chain.Twin b (get 5 b.perm i) b (get 5 b.perm j)) (a n g : Nat) (hn : a + n ≤ size 5 b.perm)
    (h : ∀ j, a ≤ j → j < a + n → (b.ent j).ikey = g) : n ≤ 10 := by
  have hc : ∀ j, j < size 5 b.perm → Chain.cls (b.klx (get 5 b.perm j)) ≤ 8 ∨ Chain.cls (b.klx (get 5 b.perm j)) = 64 := by
    intro j hj
    unfold Chain.cls
    rcases hg j hj with ⟨_, h | h⟩ | ⟨_, h, _⟩ <;> split <;> omega
  refine Tree.pigeon n (fun j => if Chain.cls (b.klx (get 5 b.perm (a + j))) = 64 then 9 else Chain.cls (b.klx (get 5 b.perm (a + j)))) (fun j hj => ?_)
    (fun i j hij hj e => ?_)
  · have := hc (a + j) (by omega)
    split <;> omega
  · have h1 := hc (a + i) (by omega)
    have h2 := hc (a + j) (by omega)
    refine ht (a + i) (a + j) (by omega) (by omega) ⟨(h _ (by omega) (by omega)).trans (h _ (by omega) (by omega)).symm, ?_⟩
    split at e <;> split at e <;> omega

/-- A leaf that is full or nearly so can be split. -/
theorem calc_some {b : Leaf V} (hp : PermOK b.perm) (hw : 22 ≤ size 5 b.perm) (hg : ∀ j, j < size 5 b.perm → Chain.Good b (get 5 b.perm j))
    (ht : ∀ i j, i < j → j < size 5 b.perm → ¬ Chain.Twin b (get 5 b.perm i) b (get 5 b.perm j)) {ik : Nat} : Tree.calcSplitPoint b ik ≠ none := by
  have G := group_le hg ht
  generalize hz : size 5 b.perm = z at *
  have key : 0 < Tree.splitPosLoop b z ik z (z / 2) ∧ Tree.splitPosLoop b z ik z (z / 2) < z := by
    by_cases c : b.ikey (get 5 b.perm (z / 2 - 1)) = b.ikey (get 5 b.perm (z / 2))
    · rcases Nat.lt_trichotomy ik (b.ikey (get 5 b.perm (z / 2 - 1))) with h | h | h
      · obtain ⟨a1, a2, _⟩ := Tree.loop_left b ik (b.ent (z / 2)).ikey z (by rw [c] at h; exact h) z (z / 2) (by omega) (by omega) rfl
        generalize Tree.splitPosLoop b z ik z (z / 2) = r at *
        have := G r (z / 2 - r + 1) _ (by omega) (fun j h1 h2 => a2 j h1 (by omega))
        omega
      · obtain ⟨a1, a2, a3, _⟩ := Tree.loop_right b ik z z (z / 2) (by omega) (by omega) (by omega) h.symm
        generalize Tree.splitPosLoop b z ik z (z / 2) = r at *
        have := G (z / 2) (r - z / 2) _ (by omega) (fun j h1 h2 => a3 j h1 (by omega))
        omega
      · obtain ⟨f, hf⟩ : ∃ f, z = f + 1 := ⟨z - 1, by omega⟩
        have : Tree.splitPosLoop b z ik z (z / 2) = z / 2 := by
          rw [show Tree.splitPosLoop b z ik z (z / 2) = Tree.splitPosLoop b z ik (f + 1) (z / 2) by rw [← hf]]
          simp only [Tree.splitPosLoop]
          rw [if_pos (by omega), if_pos c, if_neg (by omega), if_neg (by omega)]
        omega
    · obtain ⟨f, hf⟩ : ∃ f, z = f + 1 := ⟨z - 1, by omega⟩
      have : Tree.splitPosLoop b z ik z (z / 2) = z / 2 := by
        rw [show Tree.splitPosLoop b z ik z (z / 2) = Tree.splitPosLoop b z ik (f + 1) (z / 2) by rw [← hf]]
        simp only [Tree.splitPosLoop]
        rw [if_pos (by omega), if_neg c]
      omega
  unfold Tree.calcSplitPoint
  simp only [hz]
  rw [if_neg (by omega), if_neg (by omega), if_neg (by omega)]
  nofun

section
variable {s : Whole.St V} {d : Bytes} {v : V} {i L m x : Nat}

theorem Own.lok (W : WOk s) (h : Own s d L m i x) : Whole.LOk (L == 0) (s.lay L) := W.ok L (W.basic.made L h.place.up)

theorem Own.insOk (W : WOk s) (h : Own s d L m i x) : Whole.InsOk (s.f.layer L) (kat d m).ikey (.own x) := by
  obtain ⟨o, r, n, g1, g2⟩ := owns_upd_climb h.owns
  have K := h.lok W
  have q := K.ins i o r n g1
  rw [show (s.lay L).s.ins i = .own x from g2, K.key i o (by rw [show (s.lay L).s.ix.pc i = _ from g1]; rfl)] at q
  rw [show (s.lay L).s.key i = kat d m from h.key] at q
  exact q

theorem Own.perm (W : WOk s) (h : Own s d L m i x) (hl : isLocked ((s.f.layer L).hold x) = true) : PermOK ((s.f.layer L).leaf x).b.perm := by
  obtain ⟨lv, e⟩ := Whole.isLocked_iff hl
  exact (h.lok W).C.thawed x (by rw [show (s.lay L).c.hold x = _ from e]; rfl)

theorem Own.sorted (W : WOk s) (h : Own s d L m i x) (hl : isLocked ((s.f.layer L).hold x) = true) (a b : Nat) (h1 : a < b)
    (h2 : b < size 5 ((s.f.layer L).leaf x).b.perm) :
    ((s.f.layer L).leaf x).b.ikey (get 5 ((s.f.layer L).leaf x).b.perm a) ≤ ((s.f.layer L).leaf x).b.ikey (get 5 ((s.f.layer L).leaf x).b.perm b) := by
  obtain ⟨lv, e⟩ := Whole.isLocked_iff hl
  have := (h.lok W).C.sorted x a b h1
  have ec : Chain.cur ((s.lay L).c.leaf x).b ((s.lay L).c.hold x) = ((s.f.layer L).leaf x).b.perm := by
    rw [show (s.lay L).c.hold x = _ from e]; rfl
  rw [ec] at this
  exact this h2

theorem Own.good (K : Know s) (h : Own s d L m i x) (hl : isLocked ((s.f.layer L).hold x) = true) (j : Nat)
    (hj : j < size 5 ((s.f.layer L).leaf x).b.perm) : Chain.Good ((s.f.layer L).leaf x).b (get 5 ((s.f.layer L).leaf x).b.perm j) := by
  obtain ⟨lv, e⟩ := Whole.isLocked_iff hl
  have eE : Chain.E (s.f.layer L) x = ((s.f.layer L).leaf x).b := Chain.E_none (by rw [e]; rfl)
  have := (K.tidy L (K.ok.basic.made L h.place.up)).good x (by rw [e]; rfl) j (by rw [eE]; exact hj)
  rw [eE] at this; exact this

theorem Own.pairs (K : Know s) (h : Own s d L m i x) (hl : isLocked ((s.f.layer L).hold x) = true) (a b : Nat) (hab : a < b)
    (hb : b < size 5 ((s.f.layer L).leaf x).b.perm) :
    ¬ Chain.Twin ((s.f.layer L).leaf x).b (get 5 ((s.f.layer L).leaf x).b.perm a) ((s.f.layer L).leaf x).b (get 5 ((s.f.layer L).leaf x).b.perm b) := by
  obtain ⟨lv, e⟩ := Whole.isLocked_iff hl
  have eE : Chain.E (s.f.layer L) x = ((s.f.layer L).leaf x).b := Chain.E_none (by rw [e]; rfl)
  have := (K.tidy L (K.ok.basic.made L h.place.up)).pairs x (by rw [e]; rfl) a b hab (by rw [eE]; exact hb)
  rw [eE] at this; exact this

/-- A slot that the search says has the key has a value. -/
theorem Own.found_val (K : Know s) (h : Own s d L m i x) (hl : isLocked ((s.f.layer L).hold x) = true) {t : Nat}
    (hf : searchForInsert ((s.f.layer L).leaf x).b (kat d m) 0 (size 5 ((s.f.layer L).leaf x).b.perm) = .found t) :
    ((s.f.layer L).leaf x).b.cell t ≠ .null ∧ ∀ q, ((s.f.layer L).leaf x).b.cell t ≠ .layer q := by
  have sp := Tree.searchForInsert_spec ((s.f.layer L).leaf x).b (kat d m) (size 5 ((s.f.layer L).leaf x).b.perm) 0
  rw [hf] at sp
  obtain ⟨j, _, hj, et, e1, _, _, e2, e3⟩ := sp
  have g := h.good K hl j (by omega)
  rw [← et] at g
  rcases g with ⟨⟨w, g⟩, _⟩ | ⟨_, g, _⟩
  · exact ⟨by rw [g]; nofun, fun q => by rw [g]; nofun⟩
  · rw [e2] at g
    rcases Tree.searchKlx_cases (kat d m) with ⟨_, a2, _⟩ | ⟨_, a2, a3, _⟩
    · rw [a2] at g; exact absurd g (by decide)
    · omega

/-- A slot that the search says leads to a layer has one. -/
theorem Own.found_layer (K : Know s) (h : Own s d L m i x) (hl : isLocked ((s.f.layer L).hold x) = true) {t : Nat}
    (hf : searchForInsert ((s.f.layer L).leaf x).b (kat d m) 0 (size 5 ((s.f.layer L).leaf x).b.perm) = .layer t) :
    ((s.f.layer L).leaf x).b.cell t ≠ .null ∧ ∀ w, ((s.f.layer L).leaf x).b.cell t ≠ .val w := by
  have sp := Tree.searchForInsert_spec ((s.f.layer L).leaf x).b (kat d m) (size 5 ((s.f.layer L).leaf x).b.perm) 0
  rw [hf] at sp
  obtain ⟨j, _, hj, et, e1, _, e2, e3⟩ := sp
  have g := h.good K hl j (by omega)
  rw [← et] at g
  rcases g with ⟨_, g⟩ | ⟨⟨q, g⟩, _, _⟩
  · have : 128 ≤ ((s.f.layer L).leaf x).b.klx t := e2
    omega
  · exact ⟨by rw [g]; nofun, fun q => by rw [g]; nofun⟩

/-- The layer after a step of the owner. -/
theorem Own.layer (h : Own s d L m i x) {a : LAct V} {b : Chain.Act V} (e : onLeaves (s.lay L) a = some b) :
    (Whole.act fixed strict s (.inLayer L a)).f.layer L = raw fixed (s.f.layer L) b := by
  rw [post_layer_same h.place.up]; unfold lact; rw [e]; rfl

theorem onF (h : Own s d L m i x) {a : LAct V} {b : Chain.Act V} (e : onLeaves (s.lay L) a = some b) :
    (some (Whole.Act.inLayer L a)).bind (onForest s) = some (.inLayer L b) := by
  show onForest s (.inLayer L a) = _
  simp only [onForest, if_pos h.place.up, e]; rfl

/-- What a step of the owner stores, if it is the value of one slot. -/
theorem wr_value (W : WOk s) (h : Own s d L m i x) {a : LAct V} {b : Chain.Act V} (e : onLeaves (s.lay L) a = some b) {t : Nat}
    (hs : SlotIs ((s.f.layer L).leaf x).b t (kat d m))
    (hw : ∀ k, Chain.written (s.f.layer L) k b = if SlotIs ((s.f.layer L).leaf x).b t k then some (.value v) else none) (d' : Bytes) :
    wr s (some (.inLayer L a)) d' = if d' = d then some v else none := by
  unfold wr
  rw [onF h e]
  show Forest.written s.f d' (.inLayer L b) = _
  have ha := W.basic.align L (W.basic.made L h.place.up)
  rw [← h.place.keyIn] at hs
  simp only [Forest.written, hw]
  by_cases hd : d' = d
  · subst hd
    rw [if_pos ⟨h.place.up, Whole.onLeaves_plain e, h.place.under⟩, if_pos hs, if_pos rfl]
  · rw [if_neg hd]
    split
    · rename_i g
      rw [if_neg (fun g' => hd (slotIs_inj ha g.2.2 h.place.under g' hs))]
    · rfl

/-- The value of a key that is there is replaced. -/
theorem put_update (K : Know s) (h : Own s d L m i x) (hl : isLocked ((s.f.layer L).hold x) = true) {t : Nat} {old : V}
    (hf : searchForInsert ((s.f.layer L).leaf x).b (kat d m) 0 (size 5 ((s.f.layer L).leaf x).b.perm) = .found t)
    (hc : ((s.f.layer L).leaf x).b.cell t = .val old) {p : Ph V} (hp : p.lin = none) :
    PutOk (Whole.act fixed strict s (.inLayer L (.update i t v))) d v i (.close L x (.ret (some old))) ∧
      Effect s d v (some (.inLayer L (.update i t v))) p (.close L x (.ret (some old))) := by
  obtain ⟨lv, eh⟩ := Whole.isLocked_iff hl
  have e : onLeaves (s.lay L) (.update i t v) = some (.update x t v) := by
    simp only [onLeaves]; rw [show (s.lay L).s.owns i = _ from h.owns]; rfl
  have sp := Tree.searchForInsert_spec ((s.f.layer L).leaf x).b (kat d m) (size 5 ((s.f.layer L).leaf x).b.perm) 0
  rw [hf] at sp
  obtain ⟨j, _, hj, et, e1, _, _, e2, e3⟩ := sp
  have hs : SlotIs ((s.f.layer L).leaf x).b t (kat d m) := by
    refine ⟨e1, ?_⟩
    rcases Tree.searchKlx_cases (kat d m) with ⟨a1, a2, _⟩ | ⟨a1, a2, _⟩
    · rw [a1, if_pos rfl]
      rw [a2] at e2
      have := e3 e2
      unfold Leaf.suf at this
      rw [if_pos (show _ = Tree.ksufKeylenx from e2)] at this
      exact ⟨e2, this⟩
    · rw [a1, if_neg (by simp), e2, a2]
  have hfs : freeSlot ((s.f.layer L).leaf x).b.perm t = false := by
    cases g : freeSlot ((s.f.layer L).leaf x).b.perm t with
    | false => rfl
    | true => exact absurd et.symm (of_decide_eq_true g j (by omega))
  refine ⟨⟨⟨m, h.post rfl rfl⟩, ?_, .inr ⟨_, rfl⟩⟩, .inr ⟨hp, wr_value K.ok h e hs (fun k => ?_), _, L, x, onF h e, ?_⟩⟩
  · rw [h.layer e]
    simp only [raw, Chain.act, eh, hc]
    rfl
  · simp only [Chain.written, eh, hc, hfs, true_and]
  · simp only [Forest.returned, hc]; rfl

/-- The key goes on in a sublayer. -/
theorem put_layer (K : Know s) (h : Own s d L m i x) (hl : isLocked ((s.f.layer L).hold x) = true) {t q : Nat}
    (hf : searchForInsert ((s.f.layer L).leaf x).b (kat d m) 0 (size 5 ((s.f.layer L).leaf x).b.perm) = .layer t)
    (hc : ((s.f.layer L).leaf x).b.cell t = .layer q) : Where s d q (m + 1) := by
  have sp := Tree.searchForInsert_spec ((s.f.layer L).leaf x).b (kat d m) (size 5 ((s.f.layer L).leaf x).b.perm) 0
  rw [hf] at sp
  obtain ⟨j, _, hj, et, e1, _, e2, e3⟩ := sp
  refine K.leads d L m q h.place ⟨x, j, (h.insOk K.ok).1, Cas.not_frozen (h.perm K.ok hl), by omega, ?_⟩
  rw [← et, h.place.keyIn]
  simp only [Chain.shown, hc]
  rw [if_pos ⟨e1, e2, e3⟩]

/-- A value is to be turned into a layer. -/
theorem put_convert (K : Know s) (h : Own s d L m i x) {t : Nat} {qs : List Nat} {bs : List (Leaf V)}
    (hf : Forest.conflict s.f L x t d v qs = some bs) : PutOk (Whole.act fixed strict s (.convert L i t d v qs)) d v i (.conv L m x) := by
  obtain ⟨lv, ev, es, cf⟩ := Forest.conflict_conf hf
  have hu := h.place.up
  have hm := K.ok.basic.made L hu
  have es : Whole.act fixed strict s (.convert L i t d v qs) = { s with f := Forest.act fixed s.f (.convert L x t d v qs) } := by
    simp only [Whole.act]
    rw [h.owns]
    simp only
    rw [if_pos (by rw [h.key, h.place.keyIn])]
  have hq : qs.headD 0 ∈ qs := by
    cases qs with
    | nil => exact absurd rfl cf.some
    | cons q _ => exact List.mem_cons_self
  rw [es]
  have home : ∀ z, z ≠ L → Home { s with f := Forest.act fixed s.f (.convert L x t d v qs) } z i := by
    intro z hz
    refine ⟨(h.away z hz).out, fun g => ?_⟩
    cases e : s.f.made z with
    | false => rw [show ((Forest.act fixed s.f (.convert L x t d v qs)).layer z).rd i = .idle from Whole.convert_new i z e g hm]; trivial
    | true =>
      have := (h.away z hz).rd e
      show Quiet (((Forest.act fixed s.f (.convert L x t d v qs)).layer z).rd i)
      simp only [Forest.act, hf]
      rw [show upd _ L _ z = _ from upd_ne _ _ _ hz, if_neg (fun g => by rw [cf.new z g] at e; cases e)]
      exact this
  have eL : (Forest.act fixed s.f (.convert L x t d v qs)).layer L = Chain.act fixed (s.f.layer L) (.convert x t (qs.headD 0)) := by
    simp only [Forest.act, hf]; exact upd_same _ _ _
  refine ⟨lv, t, qs.headD 0, 1, ⟨d, v, qs⟩, ⟨⟨⟨Forest.up_act _ hu, ?_, ?_⟩, home, ?_, h.inside, h.key, h.op, h.look⟩, h.owns⟩, ?_, by omega, ?_, ?_, rfl, rfl⟩
  · show Under ((Forest.act fixed s.f (.convert L x t d v qs)).pre L) d
    rw [Forest.pre_act _ hm]; exact h.place.under
  · show ((Forest.act fixed s.f (.convert L x t d v qs)).pre L).length = _
    rw [Forest.pre_act _ hm]; exact h.place.len
  · show Quiet (((Forest.act fixed s.f (.convert L x t d v qs)).layer L).rd i)
    rw [eL, Whole.chain_rd fixed _ i (by nofun) (by nofun)]; exact h.rd
  · show ((Forest.act fixed s.f (.convert L x t d v qs)).layer L).hold x = _
    rw [eL]
    simp only [Chain.act, cf.hold]
    rw [if_pos ⟨cf.pub, cf.klx⟩]
    exact upd_same _ _ _
  · show (Forest.act fixed s.f (.convert L x t d v qs)).made _ = true
    simp only [Forest.act, hf]
    rw [show qs.contains (qs.headD 0) = true from List.contains_iff_mem.2 hq, Bool.or_true]
  · show (Forest.act fixed s.f (.convert L x t d v qs)).job _ = _
    simp only [Forest.act, hf]
    exact upd_same _ _ _

/-- The leaf has to be split. -/
theorem put_split (K : Know s) (h : Own s d L m i x) (hl : isLocked ((s.f.layer L).hold x) = true) {ik : Nat} {p : Ph V} (hp : p.lin = none)
    (hw : 22 ≤ size 5 ((s.f.layer L).leaf x).b.perm) :
    PutOk (after fixed strict s (splitOr L m i x ((s.f.layer L).leaf x).b ik).1) d v i (splitOr L m i x ((s.f.layer L).leaf x).b ik).2 ∧
      Effect s d v (splitOr L m i x ((s.f.layer L).leaf x).b ik).1 p (splitOr L m i x ((s.f.layer L).leaf x).b ik).2 := by
  unfold splitOr
  cases e : Tree.calcSplitPoint ((s.f.layer L).leaf x).b ik with
  | none => exact absurd e (calc_some (h.perm K.ok hl) hw (h.good K hl) (h.pairs K hl))
  | some sp =>
    obtain ⟨lv, eh⟩ := Whole.isLocked_iff hl
    have e' : onLeaves (s.lay L) (.split i) = some (.markSplit x) := by
      simp only [onLeaves]; rw [show (s.lay L).s.owns i = _ from h.owns]; rfl
    refine ⟨⟨h.post rfl rfl, ?_⟩, .mute _ _ _ _ rfl hp.symm⟩
    show (∃ lv, ((Whole.act fixed strict s (.inLayer L (.split i))).f.layer L).hold x = _) ∧ 0 < sp ∧
      sp < size 5 (((Whole.act fixed strict s (.inLayer L (.split i))).f.layer L).leaf x).b.perm
    rw [h.layer e']
    simp only [raw, Chain.act, eh, upd_same]
    refine ⟨⟨_, rfl⟩, ?_⟩
    unfold Tree.calcSplitPoint at e
    simp only at e
    split at e
    · cases e
    · split at e
      · cases e
      · split at e
        · cases e
        · cases e
          rename_i g
          refine ⟨by omega, ?_⟩
          show _ < size 5 ((s.f.layer L).leaf x).b.perm
          omega

/-- The search under the lock and what follows from it. -/
theorem put_decide (K : Know s) (h : Own s d L m i x) (hl : isLocked ((s.f.layer L).hold x) = true) (qs : List Nat) :
    PutOk (after fixed strict s (decide s L m i x d v qs).1) d v i (decide s L m i x d v qs).2 ∧
      Effect s d v (decide s L m i x d v qs).1 (.down L m) (decide s L m i x d v qs).2 := by
  unfold decide
  simp only
  cases hf : searchForInsert ((s.f.layer L).leaf x).b (Key.shiftTimes m (Key.mk' d)) 0 (size 5 ((s.f.layer L).leaf x).b.perm) with
  | found t =>
    simp only
    cases hc : ((s.f.layer L).leaf x).b.cell t with
    | null => exact absurd hc (h.found_val K hl hf).1
    | val old => exact put_update K h hl hf hc rfl
    | layer q => exact absurd hc ((h.found_val K hl hf).2 q)
  | layer t =>
    simp only
    cases hc : ((s.f.layer L).leaf x).b.cell t with
    | null => exact absurd hc (h.found_layer K hl hf).1
    | val old => exact absurd hc ((h.found_layer K hl hf).2 old)
    | layer q => exact ⟨⟨put_finish h hl, (fun q m' e => by cases e; exact (put_layer K h hl hf hc).post h.place.up _), by nofun⟩, .mute _ _ _ _ rfl rfl⟩
  | conflict t =>
    simp only
    cases hc : Forest.conflict s.f L x t d v qs with
    | none =>
      refine ⟨⟨h.toHere, fun x' e => ?_⟩, .none _ _ _ rfl⟩
      have : some x = some x' := h.owns.symm.trans e
      cases this; exact hl
    | some bs => exact ⟨put_convert (fixed := fixed) (strict := strict) K h hc, .inl ⟨wr_convert _ _ _ _ _ _ _, rfl⟩⟩
  | notFound pos =>
    simp only
    have G := gap_of (h.good K hl) (h.sorted K.ok hl) hf
    split
    · rename_i hw; exact put_split K h hl rfl (Nat.le_trans (show 22 ≤ Tree.leafWidth by decide) hw)
    · rename_i hw
      have hw : size 5 ((s.f.layer L).leaf x).b.perm < 24 := Nat.lt_of_not_le hw
      split
      · rename_i hb
        cases ha : Tree.findAlt ((s.f.layer L).leaf x).b.perm 1 (Tree.leafWidth - size 5 ((s.f.layer L).leaf x).b.perm - 1) with
        | none => exact put_split K h hl rfl (findAlt_none (h.perm K.ok hl) hb.1 ha)
        | some r =>
          obtain ⟨t, off⟩ := r
          obtain ⟨a1, a2, a3⟩ := Store.findAlt_spec ha
          have hoff : off < 24 - size 5 ((s.f.layer L).leaf x).b.perm := by
            have : Tree.leafWidth - size 5 ((s.f.layer L).leaf x).b.perm - 1 = 24 - size 5 ((s.f.layer L).leaf x).b.perm - 1 := rfl
            rw [this] at a2
            omega
          exact ⟨⟨h, hl, G, hoff, a3, by omega, by omega, by omega, by omega, fun _ g => absurd g (findAlt_ne ha)⟩, .none _ _ _ rfl⟩
      · rename_i hb
        refine ⟨⟨h, hl, G, Nat.sub_pos_of_lt hw, rfl, by omega, by omega, by omega, by omega, fun _ g => ?_⟩, .none _ _ _ rfl⟩
        refine Classical.or_iff_not_imp_left.2 fun hx => Classical.byContradiction fun hi => hb ⟨g, ?_⟩
        unfold Race.reuse0
        rw [if_pos (bne_iff_ne.2 hx)]
        exact beq_false_of_ne (Ne.symm hi)
end

end Verif.Ops
