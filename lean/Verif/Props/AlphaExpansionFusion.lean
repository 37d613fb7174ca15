import Verif.Props.Hqpbo
import Verif.Spec.Expansion
/-
C73: AlphaExpansionFusion.
-/
namespace OpenGM
open Spec FixFusion
open AlphaExpansion (ValidInit ValidOrder Init Order Inv)
open Hoe (HOE QuadraticRep)
variable {V : Type} [CommRing V] [LinearOrder V] [IsStrictOrderedRing V]

/-- The objects that a user can reach: constructor, reset, setStartingPoint and infer, in any order. -/
inductive AefReachable (qpbo : QuadraticRep V → Nat → Int) (gm : GM V) (p : Problem V) (L : Nat) : AEF V → Prop
  | construct {steps : Nat} {ini : Init} {ord : Order} {ae : AEF V} (hi : ValidInit p.numLabels.length ini) (ho : ValidOrder L ord)
      (h : AEF.construct gm steps ini ord = .ok () (some ae)) : AefReachable qpbo gm p L ae
  | reset {ae ae' : AEF V} {ini : Init} {ord : Order} (ha : AefReachable qpbo gm p L ae) (hi : ValidInit p.numLabels.length ini) (ho : ValidOrder L ord)
      (h : AlphaExpansion.reset ae ini ord = some ae') : AefReachable qpbo gm p L ae'
  | start {ae ae' : AEF V} {x : List Nat} (ha : AefReachable qpbo gm p L ae) (hx : p.Labeling x) (h : AlphaExpansion.setStartingPoint ae x = some ae') : AefReachable qpbo gm p L ae'
  | infer {ae ae' : AEF V} {seen : List (List Nat)} (ha : AefReachable qpbo gm p L ae) (h : AEF.infer qpbo ae = some (ae', seen)) : AefReachable qpbo gm p L ae'

/-- QPBO labels the first `n` nodes of every function. -/
def CompleteSolver (qpbo : QuadraticRep V → Nat → Int) (n : Nat) : Prop := ∀ q v, v < n → qpbo q v = 0 ∨ qpbo q v = 1

/-- The label alpha or the current label. -/
def alphaL (label : List Nat) (α : Nat) (b : Bool) (v : Nat) : Nat := if b then α else label.getD v 0

theorem alphaChoice {p : Problem V} {L : Nat} (h2 : ∀ n ∈ p.numLabels, n = L) {label : List Nat} (hl : p.Labeling label) {α : Nat} (hα : α < L) : LabelChoice p.numLabels (alphaLabel label α) (alphaL label α) := by
  refine ⟨fun b v n hn => ?_⟩
  have hv : v < label.length := by rw [hl.1]; exact (List.getElem?_eq_some_iff.1 hn).1
  cases b with
  | false => exact ⟨by simp [alphaLabel, alphaL, List.getElem?_eq_getElem hv], by
      have := hl.2 v _ n (List.getElem?_eq_getElem hv) hn
      simpa [alphaL, List.getElem?_eq_getElem hv] using this⟩
  | true => exact ⟨rfl, by simp only [alphaL, if_true]; rw [h2 n (List.mem_of_getElem? hn)]; exact hα⟩

theorem labelsOf_false {p : Problem V} {label : List Nat} (hl : p.Labeling label) (α : Nat) : labelsOf p.numLabels.length (alphaL label α) (fun _ => false) = label := by
  apply List.ext_getElem?
  intro v
  by_cases hv : v < p.numLabels.length
  · rw [labelsOf_getElem? _ _ _ _ hv, List.getElem?_eq_getElem (by rw [hl.1]; exact hv)]
    simp [alphaL, List.getElem?_eq_getElem (show v < label.length by rw [hl.1]; exact hv)]
  · rw [List.getElem?_eq_none (by rw [labelsOf_length]; omega), List.getElem?_eq_none (by rw [hl.1]; omega)]

/-- The variables that an expansion changes. -/
def movedBits (x z : List Nat) (v : Nat) : Bool := !decide (z[v]? = x[v]?)

theorem labelsOf_move {p : Problem V} {label z : List Nat} (hl : p.Labeling label) {α : Nat} (hz : ExpansionMove α label z) : labelsOf p.numLabels.length (alphaL label α) (movedBits label z) = z := by
  apply List.ext_getElem?
  intro v
  by_cases hv : v < p.numLabels.length
  · have hv' : v < label.length := by rw [hl.1]; exact hv
    rw [labelsOf_getElem? _ _ _ _ hv]
    by_cases he : z[v]? = label[v]?
    · rw [he, List.getElem?_eq_getElem hv']
      simp [movedBits, he, alphaL, List.getElem?_eq_getElem hv']
    · rcases hz.2 v hv' with h | h
      · exact absurd h he
      · rw [h]; rw [h] at he; simp [movedBits, h, he, alphaL]
  · rw [List.getElem?_eq_none (by rw [labelsOf_length]; omega), List.getElem?_eq_none (by rw [hz.1, hl.1]; omega)]

theorem takeAlpha_labels {p : Problem V} {label : List Nat} (hl : p.Labeling label) (q : Nat → Int) (α : Nat) :
    (takeAlpha q α label).1 = labelsOf p.numLabels.length (alphaL label α) (overwrite (answer q) (fun _ => false)) := by
  apply List.ext_getElem?
  intro v
  unfold takeAlpha
  simp only
  rw [List.getElem?_mapIdx]
  by_cases hv : v < p.numLabels.length
  · have hv' : v < label.length := by rw [hl.1]; exact hv
    rw [labelsOf_getElem? _ _ _ _ hv, List.getElem?_eq_getElem hv']
    simp only [Option.map_some, overwrite, answer]
    by_cases h1 : q v = 1
    · simp [h1, alphaL]
    · by_cases h0 : q v = 0
      · simp [h0, alphaL, List.getElem?_eq_getElem hv']
      · simp [h0, h1, alphaL, List.getElem?_eq_getElem hv']
  · rw [List.getElem?_eq_none (by rw [hl.1]; omega), List.getElem?_eq_none (by rw [labelsOf_length]; omega)]
    rfl

theorem takeAlpha_move (q : Nat → Int) (α : Nat) (label : List Nat) : ExpansionMove α label (takeAlpha q α label).1 := by
  refine ⟨by simp [takeAlpha], fun v hv => ?_⟩
  simp only [takeAlpha, List.getElem?_mapIdx, List.getElem?_eq_getElem hv, Option.map_some]
  by_cases h : q v = 1
  · right; simp [h]
  · left; simp [h]

theorem takeAlpha_unchanged (q : Nat → Int) (α : Nat) (label : List Nat) (h : (takeAlpha q α label).2 = 0) : (takeAlpha q α label).1 = label := by
  simp only [takeAlpha, List.countP_eq_zero, List.mem_range, decide_eq_true_eq] at h
  apply List.ext_getElem?
  intro v
  simp only [takeAlpha, List.getElem?_mapIdx]
  by_cases hv : v < label.length
  · rw [List.getElem?_eq_getElem hv]
    simp [h v hv]
  · rw [List.getElem?_eq_none (by omega)]; rfl

section
variable {gm : GM V} {p : Problem V} {L : Nat} {qpbo : QuadraticRep V → Nat → Int} (hs : Stores gm p) (h2 : ∀ n ∈ p.numLabels, n = L) (ho : ∀ t ∈ p.terms, t.vars.length ≤ 10) (hq : PersistentSolver qpbo)
include hs h2 ho hq

theorem aef_expand {label : List Nat} (hl : p.Labeling label) {α : Nat} (hα : α < L) :
    ∃ r, expand qpbo gm label α = some r ∧ p.Labeling r.1 ∧ ExpansionMove α label r.1 ∧ p.energy (sumOp V) r.1 ≤ p.energy (sumOp V) label ∧
      (CompleteSolver qpbo p.numLabels.length → ∀ z, ExpansionMove α label z → p.energy (sumOp V) r.1 ≤ p.energy (sumOp V) z) ∧ (r.2 = 0 → r.1 = label) := by
  have hch : LabelChoice gm.numLabels (alphaLabel label α) (alphaL label α) := by rw [hs.labels]; exact alphaChoice h2 hl hα
  obtain ⟨h, ms, e1, hb, hm⟩ := move_spec (by omega) hs ho hch
  obtain ⟨h', q, e2, _, hp⟩ := move_persistent (by omega) hm (.built hb)
  have hp' := hp (answer (qpbo q)) (hq q)
  have hlab := labeling_labelsOf hs hch (overwrite (answer (qpbo q)) (fun _ => false))
  rw [hs.labels] at hp' hlab
  have hn : gm.numberOfVariables = p.numLabels.length := by rw [← hs.labels]; rfl
  refine ⟨takeAlpha (qpbo q) α label, ?_, ?_, takeAlpha_move _ _ _, ?_, fun hc z hz => ?_, takeAlpha_unchanged _ _ _⟩
  · unfold expand
    rw [e1]
    simp only
    rw [e2]
  · rw [takeAlpha_labels hl]; exact hlab
  · have := hp' (fun _ => false)
    rw [labelsOf_false hl] at this
    rw [takeAlpha_labels hl]; exact this
  · have := hp' (movedBits label z)
    rw [labelsOf_move hl hz] at this
    rw [takeAlpha_labels hl]
    have hsame : labelsOf p.numLabels.length (alphaL label α) (overwrite (answer (qpbo q)) (fun _ => false)) = labelsOf p.numLabels.length (alphaL label α) (overwrite (answer (qpbo q)) (movedBits label z)) := by
      unfold labelsOf
      apply List.map_congr_left
      intro v hv
      rw [List.mem_range] at hv
      rcases hc q v hv with h | h <;> simp [overwrite, answer, h]
    rw [hsame]; exact this

/-- The labels of the last `count` moves cannot improve the labeling. -/
def Covered (p : Problem V) (L count : Nat) (ae : AEF V) : Prop :=
  ∀ pos j α, pos < L → j < count → (pos + j + 1) % L = ae.counter → ae.labelList[pos]? = some α → ∀ z, ExpansionMove α ae.label z → p.energy (sumOp V) ae.label ≤ p.energy (sumOp V) z

/-- One move of the chain. -/
def ExpansionStep (p : Problem V) (L : Nat) (best : Prop) (x y : List Nat) : Prop :=
  p.Labeling y ∧ p.energy (sumOp V) y ≤ p.energy (sumOp V) x ∧ ∃ α, α < L ∧ ExpansionMove α x y ∧ (best → ∀ z, ExpansionMove α x z → p.energy (sumOp V) y ≤ p.energy (sumOp V) z)

/-- The invariant of the objects. -/
structure AefInv (gm : GM V) (p : Problem V) (L : Nat) (ae : AEF V) : Prop where
  base : Inv 1 gm p L ae
  counter : ae.counter < L
  cursor : ae.labelList[ae.counter]? = some ae.alpha

theorem aef_loop (hL : 0 < L) : ∀ (steps count : Nat) (ae : AEF V), AefInv gm p L ae → (CompleteSolver qpbo p.numLabels.length → Covered p L count ae) →
    ∃ ae' seen, loop qpbo steps count ae = some (ae', seen) ∧ AefInv gm p L ae' ∧
      (ae.label :: seen).IsChain (ExpansionStep p L (CompleteSolver qpbo p.numLabels.length)) ∧ (ae.label :: seen).getLast? = some ae'.label ∧ seen.length ≤ steps ∧ ae'.labelList = ae.labelList ∧
      ae'.maxNumberOfSteps = ae.maxNumberOfSteps ∧
      (seen.length < steps → CompleteSolver qpbo p.numLabels.length → ∀ α ∈ ae'.labelList, ∀ z, ExpansionMove α ae'.label z → p.energy (sumOp V) ae'.label ≤ p.energy (sumOp V) z) := by
  intro steps
  induction steps with
  | zero => intro count ae hi _; exact ⟨ae, [], rfl, hi, by simp, by simp, by simp, rfl, rfl, by simp⟩
  | succ steps ih =>
    intro count ae hi hcov
    rw [loop]
    by_cases hc : ae.maxState ≤ count
    · rw [if_pos hc]
      refine ⟨ae, [], rfl, hi, by simp, by simp, by simp, rfl, rfl, fun _ hcomp α hα z hz => ?_⟩
      rw [hi.base.maxState] at hc
      obtain ⟨pos, hpos⟩ := List.mem_iff_getElem?.1 hα
      have hpl : pos < L := by
        have := (List.getElem?_eq_some_iff.1 hpos).1
        rw [hi.base.length] at this; exact this
      refine hcov hcomp pos ((ae.counter + L - (pos + 1)) % L) α hpl ?_ ?_ hpos z hz
      · exact lt_of_lt_of_le (Nat.mod_lt _ hL) hc
      · have h1 := hi.counter
        rw [show pos + (ae.counter + L - (pos + 1)) % L + 1 = (pos + 1) + (ae.counter + L - (pos + 1)) % L by omega, Nat.add_mod_mod, show pos + 1 + (ae.counter + L - (pos + 1)) = ae.counter + L by omega,
          Nat.add_mod_right, Nat.mod_eq_of_lt h1]
    · rw [if_neg hc]
      obtain ⟨⟨label, changed⟩, e1, e2, e3, e4, e5, e6⟩ := aef_expand hs h2 ho hq hi.base.label hi.base.alpha
      have e1' : expand qpbo ae.gm ae.label ae.alpha = some (label, changed) := by rw [hi.base.gm]; exact e1
      rw [e1']
      simp only at e2 e3 e4 e5 e6 ⊢
      have hlt : (ae.counter + 1) % L < ae.labelList.length := by rw [hi.base.length]; exact Nat.mod_lt _ hL
      obtain ⟨ae1, i1, i2, i3, i4, i5, i6, i7⟩ : ∃ ae1, AlphaExpansion.incrementAlpha { ae with label := label } = some ae1 ∧ AefInv gm p L ae1 ∧ ae1.label = label ∧ ae1.counter = (ae.counter + 1) % L ∧
          ae1.labelList = ae.labelList ∧ ae1.maxNumberOfSteps = ae.maxNumberOfSteps ∧ True := by
        unfold AlphaExpansion.incrementAlpha
        simp only [hi.base.maxState]
        rw [if_neg (by omega), List.getElem?_eq_getElem hlt]
        exact ⟨_, rfl, ⟨⟨hi.base.gm, hi.base.scale, e2, rfl, hi.base.length, hi.base.list, hi.base.list _ (List.getElem_mem _)⟩, Nat.mod_lt _ hL, List.getElem?_eq_getElem hlt⟩, rfl, rfl, rfl, rfl, trivial⟩
      rw [i1]
      simp only
      have hcov1 : CompleteSolver qpbo p.numLabels.length → Covered p L (if changed > 0 then 0 else count + 1) ae1 := by
        intro hcomp pos j α hpos hj hmod hget z hz
        split at hj
        · omega
        · rename_i hch
          have hsame := e6 (by omega)
          rw [i3, hsame] at hz ⊢
          rw [i5] at hget
          rw [i4] at hmod
          have hmod' : (pos + j) % L = ae.counter % L := by
            have : (pos + j) + 1 ≡ ae.counter + 1 [MOD L] := hmod.trans (by rfl)
            exact Nat.ModEq.add_right_cancel' 1 this
          rw [Nat.mod_eq_of_lt hi.counter] at hmod'
          cases j with
          | zero =>
            rw [Nat.add_zero, Nat.mod_eq_of_lt hpos] at hmod'
            rw [hmod', hi.cursor] at hget
            cases hget
            have := e5 hcomp z hz
            rw [hsame] at this
            exact this
          | succ j => exact hcov hcomp pos j α hpos (by omega) (by rw [show pos + j + 1 = pos + (j + 1) by omega]; exact hmod') hget z hz
      obtain ⟨ae', seen, a1, a2, a3, a4, a5, a6, a7, a8⟩ := ih _ ae1 i2 hcov1
      rw [a1]
      rw [i3] at a3 a4
      refine ⟨ae', label :: seen, rfl, a2, List.IsChain.cons_cons ⟨e2, e4, ae.alpha, hi.base.alpha, e3, e5⟩ a3, ?_, by simp; omega, by rw [a6, i5], by rw [a7, i6], fun hlen => a8 (by simp at hlen; omega)⟩
      rw [List.getLast?_cons_cons]; exact a4

theorem aef_construct (hL : 0 < L) (hne : p.numLabels ≠ []) (steps : Nat) {ini : Init} {ord : Order} (hi : ValidInit p.numLabels.length ini) (hord : ValidOrder L ord) :
    ∃ ae, AEF.construct gm steps ini ord = .ok () (some ae) ∧ AefInv gm p L ae ∧ ae.labelList = AlphaExpansion.initOrder L [] ord ∧ ae.maxNumberOfSteps = steps ∧
      AlphaExpansion.initLabel gm [] ini = some ae.label := by
  have hl := hs.labels
  have hfac : gm.factors.any (fun f => decide (10 < f.visSize)) = false := by
    rw [List.any_eq_false]
    intro f hf
    obtain ⟨t, ht, hm⟩ := AlphaExpansion.forall₂_mem_left hs.factors f hf
    have := ho t ht
    rw [hm.visSize]
    simp; omega
  obtain ⟨label, e1, e2⟩ := AlphaExpansion.initLabel_spec hL hl h2 [] (Or.inl rfl) hi
  have hmax : AlphaExpansion.maxStateOf gm = L := AlphaExpansion.maxStateOf_uniform (by rw [hl]; exact hne) (by rw [hl]; exact h2)
  obtain ⟨o1, o2⟩ := AlphaExpansion.initOrder_spec (L := L) [] (Or.inl rfl) hord
  have h0 : (AlphaExpansion.initOrder L [] ord)[0]? = some ((AlphaExpansion.initOrder L [] ord)[0]'(by omega)) := List.getElem?_eq_getElem _
  unfold AEF.construct
  simp only [hfac, e1, hmax, h0]
  exact ⟨_, rfl, ⟨⟨rfl, rfl, e2, rfl, o1, o2, o2 _ (List.getElem_mem _)⟩, hL, h0⟩, rfl, rfl, rfl⟩

theorem AefReachable.inv (hL : 0 < L) (hne : p.numLabels ≠ []) {ae : AEF V} (hr : AefReachable qpbo gm p L ae) : AefInv gm p L ae := by
  induction hr with
  | construct hi hord h =>
    obtain ⟨ae', e, hinv, _⟩ := aef_construct hs h2 ho hq hL hne _ hi hord
    rw [e] at h
    injection h with _ h
    injection h with h
    exact h ▸ hinv
  | @reset ae ae' ini ord ha hi hord h ih =>
    unfold AlphaExpansion.reset at h
    obtain ⟨o1, o2⟩ := AlphaExpansion.initOrder_spec ae.labelList (Or.inr ⟨ih.base.length, ih.base.list⟩) hord
    obtain ⟨l, e1, e2⟩ : ∃ l, AlphaExpansion.resetLabel ae ini = some l ∧ p.Labeling l := by
      have := AlphaExpansion.initLabel_spec hL (ih.base.gm ▸ hs.labels) h2 ae.label (Or.inr ih.base.label) hi
      cases ini with
      | default => exact ⟨_, rfl, by rw [ih.base.label.1]; exact AlphaExpansion.labeling_zero hL h2⟩
      | random rs => exact this
      | localOpt => exact this
      | explicit l => exact this
    rw [e1] at h
    simp only [ih.base.maxState] at h
    have h0 := List.getElem?_eq_getElem (by omega : 0 < (AlphaExpansion.initOrder L ae.labelList ord).length)
    rw [h0] at h
    injection h with h
    subst h
    exact ⟨⟨ih.base.gm, ih.base.scale, e2, rfl, o1, o2, o2 _ (List.getElem_mem _)⟩, hL, h0⟩
  | @start ae ae' x ha hx h ih =>
    unfold AlphaExpansion.setStartingPoint at h
    split at h
    · injection h with h
      subst h
      have hn : ae.gm.numberOfVariables = p.numLabels.length := by rw [ih.base.gm, ← hs.labels]; rfl
      refine ⟨⟨ih.base.gm, ih.base.scale, ?_, ih.base.maxState, ih.base.length, ih.base.list, ih.base.alpha⟩, ih.counter, ih.cursor⟩
      simp only [hn, ← hx.1, List.take_length]
      exact hx
    · exact absurd h (by simp)
  | @infer ae ae' seen ha h ih =>
    obtain ⟨ae2, seen2, a1, a2, _⟩ := aef_loop hs h2 ho hq hL ae.maxNumberOfSteps 0 ae ih (fun _ pos j α _ hj => by omega)
    unfold AEF.infer at h
    rw [a1] at h
    injection h with h
    injection h with h _
    exact h ▸ a2
end

/-- C73. A model whose variables have `L` labels each and whose factors have order at most 10, and a QPBO whose labels are persistent. Whatever the user has called before, a call of `infer` is free of
accesses out of range and makes at most the given number of steps; each step changes some variables to one label alpha, gives a labeling, and does not increase the energy. If QPBO labels all
variables, each step is a best expansion of its label; and if infer ended before the given number of steps, no expansion of a label of the list of labels improves the result. -/
theorem C73_infer (gm : GM V) (p : Problem V) (hb : BuiltModel gm p) (L : Nat) (hL : 0 < L) (hne : p.numLabels ≠ []) (h2 : ∀ n ∈ p.numLabels, n = L) (ho : ∀ t ∈ p.terms, t.vars.length ≤ 10)
    (qpbo : QuadraticRep V → Nat → Int) (hq : PersistentSolver qpbo) (ae : AEF V) (hr : AefReachable qpbo gm p L ae) :
    p.Labeling (AlphaExpansion.arg ae) ∧
    ∃ ae' seen, AEF.infer qpbo ae = some (ae', seen) ∧ seen.length ≤ ae.maxNumberOfSteps ∧
      (AlphaExpansion.arg ae :: seen).IsChain (fun x y => p.Labeling y ∧ p.energy (sumOp V) y ≤ p.energy (sumOp V) x ∧
        ∃ α, α < L ∧ ExpansionMove α x y ∧ (CompleteSolver qpbo p.numLabels.length → ∀ z, ExpansionMove α x z → p.energy (sumOp V) y ≤ p.energy (sumOp V) z)) ∧
      (AlphaExpansion.arg ae :: seen).getLast? = some (AlphaExpansion.arg ae') ∧
      p.energy (sumOp V) (AlphaExpansion.arg ae') ≤ p.energy (sumOp V) (AlphaExpansion.arg ae) ∧
      (seen.length < ae.maxNumberOfSteps → CompleteSolver qpbo p.numLabels.length → ∀ α ∈ ae.labelList, ∀ z, ExpansionMove α (AlphaExpansion.arg ae') z →
        p.energy (sumOp V) (AlphaExpansion.arg ae') ≤ p.energy (sumOp V) z) := by
  have hs := hb.represents.toStores
  have hi := hr.inv hs h2 ho hq hL hne
  refine ⟨hi.base.label, ?_⟩
  obtain ⟨ae', seen, a1, a2, a3, a4, a5, a6, a7, a8⟩ := aef_loop hs h2 ho hq hL ae.maxNumberOfSteps 0 ae hi (fun _ pos j α _ hj => by omega)
  refine ⟨ae', seen, a1, a5, a3, a4, ?_, fun hlen hc α hα z hz => a8 hlen hc α (by rw [a6]; exact hα) z hz⟩
  have key : ∀ (l : List (List Nat)) (x y : List Nat), (x :: l).IsChain (fun x y => p.energy (sumOp V) y ≤ p.energy (sumOp V) x) →
      (x :: l).getLast? = some y → p.energy (sumOp V) y ≤ p.energy (sumOp V) x := by
    intro l
    induction l with
    | nil => intro x y _ h; simp at h; rw [h]
    | cons z l ih =>
      intro x y hc hlast
      rw [List.isChain_cons_cons] at hc
      rw [List.getLast?_cons_cons] at hlast
      exact le_trans (ih z y hc.2 hlast) hc.1
  exact key seen _ _ (a3.imp (fun _ _ h => h.2.1)) a4

/-- C73: the constructor accepts such a model; by default the list of labels has all labels and the labeling is 0; an explicit labeling is taken. It throws if a factor has order more than 10. -/
theorem C73_construct (gm : GM V) (p : Problem V) (hb : BuiltModel gm p) (L : Nat) (hL : 0 < L) (hne : p.numLabels ≠ []) (h2 : ∀ n ∈ p.numLabels, n = L) (steps : Nat) (ini : Init) (ord : Order)
    (hi : ValidInit p.numLabels.length ini) (hord : ValidOrder L ord) :
    ((∀ t ∈ p.terms, t.vars.length ≤ 10) → ∃ ae, AEF.construct gm steps ini ord = .ok () (some ae) ∧ p.Labeling (AlphaExpansion.arg ae) ∧ ae.maxNumberOfSteps = steps ∧
      (ord = .default → ae.labelList = List.range L) ∧ (∀ l, ord = .explicit l → ae.labelList = l) ∧
      (ini = .default → AlphaExpansion.arg ae = List.replicate p.numLabels.length 0) ∧ (∀ l, ini = .explicit l → p.Labeling l → AlphaExpansion.arg ae = l)) ∧
    ((∃ t ∈ p.terms, 10 < t.vars.length) → AEF.construct gm steps ini ord = .throw none) := by
  have hs := hb.represents.toStores
  have hn : gm.numberOfVariables = p.numLabels.length := by rw [← hs.labels]; rfl
  constructor
  · intro ho
    obtain ⟨ae, e, hinv, e1, e2, e3⟩ := aef_construct (qpbo := fun _ _ => 2) hs h2 ho (fun q z => by
      have : overwrite (answer (fun _ => (2 : Int))) z = z := by funext i; simp [overwrite, answer]
      rw [this]) hL hne steps hi hord
    refine ⟨ae, e, hinv.base.label, e2, ?_, ?_, ?_, ?_⟩
    · rintro rfl
      rw [e1]
      simp [AlphaExpansion.initOrder]
    · rintro l rfl
      rw [e1]
      obtain ⟨hl, _⟩ := hord
      simp [AlphaExpansion.initOrder, hl]
    · rintro rfl
      simp only [AlphaExpansion.initLabel, AlphaExpansion.resized_nil, Option.some.injEq, hn] at e3
      exact e3.symm
    · rintro l rfl hl
      simp only [AlphaExpansion.initLabel, AlphaExpansion.resized_nil, Option.some.injEq, hn] at e3
      show ae.label = l
      rw [← e3]
      simp only [AlphaExpansion.setInitialLabel, List.length_replicate, hl.1, if_true]
      rw [if_neg]
      simp only [Bool.not_eq_true, List.any_eq_false, decide_eq_true_eq, not_le]
      rintro ⟨a, n⟩ hmem
      rw [hs.labels, List.mem_iff_getElem] at hmem
      obtain ⟨i, hi, he⟩ := hmem
      simp only [List.getElem_zip, Prod.mk.injEq] at he
      simp only [List.length_zip] at hi
      exact hl.2 i a n (List.getElem?_eq_some_iff.mpr ⟨by omega, he.1⟩) (List.getElem?_eq_some_iff.mpr ⟨by omega, he.2⟩)
  · rintro ⟨t, ht, hlen⟩
    unfold AEF.construct
    rw [if_pos]
    rw [List.any_eq_true]
    obtain ⟨f, hf, hm⟩ := AlphaExpansion.forall₂_mem_right hs.factors t ht
    exact ⟨f, hf, by rw [hm.visSize]; simpa using hlen⟩

/-! ### Examples and disagreements -/

/-- Three variables with three labels, a unary factor and a factor of order three that is -4 if all labels are 2. -/
def aefOps : List (BuildOp Int) :=
  [.addVariable 3, .addVariable 3, .addVariable 3,
   .addFunction 0 ⟨[3], fun c => if c = [2] then 3 else 0⟩,
   .addFunction 0 ⟨[3, 3, 3], fun c => if c = [2, 2, 2] then -4 else 0⟩,
   .addFactor 0 [0], .addFactor 1 [0, 1, 2]]

theorem aefOps_valid : ValidHistory 1 Built.empty aefOps := by
  simp [aefOps, ValidHistory, BuildOp.Valid, BuildOp.apply, Built.empty, restrict]

/-- The hypotheses of `C73_construct` and `C73_infer` are met by this model, a solver that labels everything, and a second call of infer after a first one; if the second call ends before the given
number of steps, its labeling is at least as good as the expansion of label 2 to all variables. -/
example : ∃ gm ae ae1 ae2 seen1 seen2, BuiltModel gm (builtAfter aefOps).problem ∧ AEF.construct gm 1000 .default .default = .ok () (some ae) ∧ AEF.infer exactQpbo ae = some (ae1, seen1) ∧
    AEF.infer exactQpbo ae1 = some (ae2, seen2) ∧ CompleteSolver (exactQpbo (V := Int)) 3 ∧
    ((builtAfter aefOps).problem.energy (sumOp Int) ae2.label ≤ (builtAfter aefOps).problem.energy (sumOp Int) ae1.label) ∧
    (builtAfter aefOps).problem.energy (sumOp Int) [2, 2, 2] = -1 := by
  obtain ⟨gm, hb⟩ := builtModel_exists aefOps_valid
  have h2 : ∀ n ∈ (builtAfter aefOps).problem.numLabels, n = 3 := by decide
  have ho : ∀ t ∈ (builtAfter aefOps).problem.terms, t.vars.length ≤ 10 := by
    intro t ht
    simp [builtAfter, aefOps, BuildOp.apply, Built.empty, Built.problem] at ht
    rcases ht with rfl | rfl <;> simp
  have hne : (builtAfter aefOps).problem.numLabels ≠ [] := by decide
  have hq : PersistentSolver (exactQpbo (V := Int)) := exactQpbo_persistent
  have hc : CompleteSolver (exactQpbo (V := Int)) 3 := by
    intro q v _
    unfold exactQpbo
    split
    · exact Or.inr rfl
    · exact Or.inl rfl
  obtain ⟨ae, e, _⟩ := (C73_construct gm _ hb 3 (by omega) hne h2 1000 .default .default trivial trivial).1 ho
  have r0 : AefReachable exactQpbo gm (builtAfter aefOps).problem 3 ae := AefReachable.construct (ini := .default) (ord := .default) trivial trivial e
  obtain ⟨_, ae1, seen1, e1, _⟩ := C73_infer gm _ hb 3 (by omega) hne h2 ho _ hq ae r0
  have r1 := AefReachable.infer r0 e1
  obtain ⟨_, ae2, seen2, e2, _, _, _, h3, _⟩ := C73_infer gm _ hb 3 (by omega) hne h2 ho _ hq ae1 r1
  exact ⟨gm, ae, ae1, ae2, seen1, seen2, hb, e, e1, e2, hc, h3, by decide⟩

/-- Two variables with two and three labels. -/
def unequalOps : List (BuildOp Int) := [.addVariable 2, .addVariable 3, .addFunction 0 ⟨[2], fun _ => 0⟩, .addFactor 0 [0]]

/-- C73 (violated): the constructor accepts variables with different numbers of labels, but infer then evaluates the factors at labels that do not exist: here label 2 for a variable with two labels,
whatever QPBO does. -/
theorem C73_violated_labels : ∃ (gm : GM Int) (p : Problem Int), BuiltModel gm p ∧ p.numLabels = [2, 3] ∧
    ∃ ae, AEF.construct gm 1000 .default (.explicit [2, 1, 0]) = .ok () (some ae) ∧ ∀ qpbo : QuadraticRep Int → Nat → Int, (AEF.infer qpbo ae).isNone = true := by
  obtain ⟨c, h1⟩ : ∃ c, (Client.init 1).run (fun _ _ => false) unequalOps = .ok () c := ⟨_, rfl⟩
  refine ⟨c.gm, (builtAfter unequalOps).problem, ⟨1, _, unequalOps, c, eqvSound_false, ?_, h1, rfl, rfl⟩, rfl, ?_⟩
  · simp [unequalOps, ValidHistory, BuildOp.Valid, BuildOp.apply, Built.empty, restrict]
  · cases h1
    exact ⟨_, rfl, fun qpbo => rfl⟩

end OpenGM
