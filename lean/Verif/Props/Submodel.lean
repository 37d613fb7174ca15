import Verif.Lemmas.Submodel
import Verif.Spec.Cuts
import Mathlib.Algebra.Order.Monoid.Defs
import Mathlib.Algebra.Group.Int.Defs
import Mathlib.Algebra.Order.Group.Int
/-
C90: optimising some of the variables of a model while the others keep their labels.
-/
namespace OpenGM
namespace Submodel
open Spec Manipulator
variable {V : Type}

/-- The state of the optimiser of a model after a history of calls. -/
def After (gm : GM V) (solver : GM (Option V) → Option (List Nat) → List Nat) (ops : List SubOp) (s : Opt V) : Prop := (construct gm).run solver ops = .ok () s

theorem after_holds {gm : GM V} {p : Problem V} (hb : BuiltModel gm p) {solver : GM (Option V) → Option (List Nat) → List Nat} (hsol : FullResults solver) {ops : List SubOp}
    (hv : ValidSub p.numLabels.length (SubState.init p.numLabels.length) ops) :
    ∃ s, After gm solver ops s ∧ Holds s p (subAfter p.numLabels.length ops).labels (subAfter p.numLabels.length ops).selected :=
  run_spec hsol ops _ _ hv (holds_construct hb.represents)

/-- C90: after every history of valid calls (none of which throws) the model of the selected variables can be built; it has these variables, in this order, with their numbers of
labels; and for every labeling that agrees with the current labels on all other variables, the value of the submodel for the labels of the selected variables is the sum (for a
commutative operation) of the terms of the model that have a selected variable. Building changes nothing else: the model can be built again. -/
theorem C90_submodel (o : Operation V) (ho : o.IsCommMonoid) {gm : GM V} {p : Problem V} (hb : BuiltModel gm p) {solver : GM (Option V) → Option (List Nat) → List Nat}
    (hsol : FullResults solver) {ops : List SubOp} (hv : ValidSub p.numLabels.length (SubState.init p.numLabels.length) ops) :
    ∃ s g, After gm solver ops s ∧ s.build = some (g, s) ∧ g.numLabels = restrict p.numLabels (subAfter p.numLabels.length ops).selected ∧
      ∀ y x, PutInto (subAfter p.numLabels.length ops).labels (subAfter p.numLabels.length ops).selected y x → p.Labeling x →
        GM.evaluate (liftOp o) g y = some (some ((p.touching (subAfter p.numLabels.length ops).selected).energy o x)) := by
  obtain ⟨s, h1, h2⟩ := after_holds hb hsol hv
  obtain ⟨g, us, done, e1, e2, e3, e4⟩ := build_spec h2
  exact ⟨s, g, h1, e1, e2.labels, fun y x hm hx => sub_value o ho h2 e2 e3 e4 hx hm⟩

theorem energy_split (o : Operation V) (ho : o.IsCommMonoid) (p : Problem V) (vs x : List Nat) :
    p.energy o x = o.op ((p.touching vs).energy o x) ((p.untouched vs).energy o x) := by
  unfold Problem.energy Problem.touching Problem.untouched
  have hp := (List.filter_append_perm (fun t : Term V => t.vars.any (fun v => vs.contains v)) p.terms).symm
  have := total_perm ho (hp.map (fun t => t.value x))
  unfold total at this
  rw [this, List.map_append, List.foldl_append]
  exact foldl_op ho _ _

/-- C90: the terms that are not in the submodel do not depend on the labels of the selected variables. -/
theorem untouched_same (o : Operation V) (p : Problem V) {L vs y x y' x' : List Nat} (hm : PutInto L vs y x) (hm' : PutInto L vs y' x') :
    (p.untouched vs).energy o x = (p.untouched vs).energy o x' := by
  unfold Problem.energy Problem.untouched
  congr 1
  apply List.map_congr_left
  intro t ht
  have hno := (List.mem_filter.mp ht).2
  unfold Term.value restrict
  congr 1
  apply List.map_congr_left
  intro v hv
  have hvs : v ∉ vs := by
    intro hm
    simp only [Bool.not_eq_true', List.any_eq_false, List.contains_iff_mem] at hno
    exact hno v hv hm
  rw [List.getD_eq_getElem?_getD, List.getD_eq_getElem?_getD, hm.others v hvs, hm'.others v hvs]

/-- C90: the value of the submodel and the energy of the model differ by an amount that does not depend on the labels of the selected variables. -/
theorem C90_offset (o : Operation V) (ho : o.IsCommMonoid) {gm : GM V} {p : Problem V} (hb : BuiltModel gm p) {solver : GM (Option V) → Option (List Nat) → List Nat}
    (hsol : FullResults solver) {ops : List SubOp} (hv : ValidSub p.numLabels.length (SubState.init p.numLabels.length) ops) :
    ∃ s g c, After gm solver ops s ∧ s.build = some (g, s) ∧
      ∀ y x, PutInto (subAfter p.numLabels.length ops).labels (subAfter p.numLabels.length ops).selected y x → p.Labeling x →
        ∃ e, GM.evaluate (liftOp o) g y = some (some e) ∧ p.energy o x = o.op e c := by
  obtain ⟨s, g, h1, h2, _, h4⟩ := C90_submodel o ho hb hsol hv
  generalize subAfter p.numLabels.length ops = st at *
  by_cases hex : ∃ y x, PutInto st.labels st.selected y x
  · obtain ⟨y0, x0, h0⟩ := hex
    refine ⟨s, g, (p.untouched st.selected).energy o x0, h1, h2, fun y x hm hx => ⟨_, h4 y x hm hx, ?_⟩⟩
    rw [energy_split o ho p st.selected x, untouched_same o p hm h0]
  · exact ⟨s, g, o.neutral, h1, h2, fun y x hm _ => absurd ⟨y, x, hm⟩ hex⟩

theorem sumOp_comm [AddCommMonoid V] : (sumOp V).IsCommMonoid := ⟨fun a b => add_comm a b, fun a b c => add_assoc a b c, fun a => zero_add a⟩

/-- C90: `inferSubmodel` gives the subsolver the submodel and, for a warm start, the current labels of the selected variables; it returns the result of the subsolver, and `true` iff
the result differs from the current labels of the selected variables; the state is unchanged. -/
theorem C90_infer {gm : GM V} {p : Problem V} (hb : BuiltModel gm p) {solver : GM (Option V) → Option (List Nat) → List Nat}
    (hsol : FullResults solver) {ops : List SubOp} (hv : ValidSub p.numLabels.length (SubState.init p.numLabels.length) ops)
    (hne : (subAfter p.numLabels.length ops).selected ≠ []) (warmStart : Bool) :
    ∃ s g b result, After gm solver ops s ∧ s.build = some (g, s) ∧ s.inferSubmodel solver warmStart = .ok (b, result) s ∧
      result = solver g (if warmStart then some (restrict (subAfter p.numLabels.length ops).labels (subAfter p.numLabels.length ops).selected) else none) ∧
      (b = true ↔ result ≠ restrict (subAfter p.numLabels.length ops).labels (subAfter p.numLabels.length ops).selected) := by
  obtain ⟨s, h1, h2⟩ := after_holds hb hsol hv
  obtain ⟨g, us, done, e1, e2, e3, e4⟩ := build_spec h2
  obtain ⟨b, f1, f2⟩ := inferSubmodel_spec h2 hne solver warmStart e1 (by
    rw [hsol]
    unfold GM.numberOfVariables
    rw [e2.labels]
    simp [shapeOf, restrict])
  exact ⟨s, g, b, _, h1, e1, f1, rfl, f2⟩

/-- `y` is a labeling of a model in memory. -/
def LabelingOf (g : GM (Option V)) (y : List Nat) : Prop := y.length = g.numLabels.length ∧ ∀ i l n : Nat, y[i]? = some l → g.numLabels[i]? = some n → l < n

/-- `y` is a labeling of the model, and none has a smaller value. -/
def BestLabeling [AddMonoid V] [LE V] (g : GM (Option V)) (y : List Nat) : Prop :=
  LabelingOf g y ∧ ∀ y', LabelingOf g y' → ∀ e e', GM.evaluate (liftOp (sumOp V)) g y = some (some e) → GM.evaluate (liftOp (sumOp V)) g y' = some (some e') → e ≤ e'

theorem merged_exists {p : Problem V} {L vs y : List Nat} (hL : p.Labeling L) (hs : vs.Pairwise (· < ·)) (hr : ∀ v ∈ vs, v < p.numLabels.length) (hy : y.length = vs.length)
    (hyr : ∀ i l n : Nat, y[i]? = some l → (restrict p.numLabels vs)[i]? = some n → l < n) : ∃ x, PutInto L vs y x ∧ p.Labeling x := by
  have hget : ∀ v, v < p.numLabels.length → ((List.range p.numLabels.length).map (fun v => if v ∈ vs then y.getD (rank vs v) 0 else L.getD v 0))[v]? =
      some (if v ∈ vs then y.getD (rank vs v) 0 else L.getD v 0) := by
    intro v hv
    rw [List.getElem?_map, List.getElem?_range hv]
    rfl
  have hm : PutInto L vs y ((List.range p.numLabels.length).map (fun v => if v ∈ vs then y.getD (rank vs v) 0 else L.getD v 0)) := by
    refine ⟨by simp [hL.1], hy, ?_, ?_⟩
    · intro i v hv
      have hmem := List.mem_of_getElem? hv
      have hi : i < y.length := by rw [hy]; exact (List.getElem?_eq_some_iff.mp hv).1
      rw [hget v (hr v hmem), if_pos hmem, rank_get hs hv, List.getD_eq_getElem?_getD, List.getElem?_eq_getElem hi]
      rfl
    · intro v hv
      by_cases hlt : v < p.numLabels.length
      · rw [hget v hlt, if_neg hv, List.getD_eq_getElem?_getD, List.getElem?_eq_getElem (by rw [hL.1]; exact hlt)]
        rfl
      · rw [List.getElem?_eq_none (by simpa using hlt), List.getElem?_eq_none (by rw [hL.1]; omega)]
  refine ⟨_, hm, by simp, ?_⟩
  intro v l n hl hn
  by_cases hv : v ∈ vs
  · have hg := get_rank hv
    rw [hm.chosen _ v hg] at hl
    refine hyr _ l n hl ?_
    rw [← hn]
    exact shapeOf_get hr hg
  · rw [hm.others v hv] at hl
    exact hL.2 v l n hl hn

/-- C90: if the current labels are a labeling of the model, and the subsolver returns a best labeling of the submodel, then the result of `inferSubmodel`, put into the current labels,
is a best labeling among all that agree with the current labels outside of the selected variables. -/
theorem C90_optimal [AddCommMonoid V] [PartialOrder V] [IsOrderedAddMonoid V] {gm : GM V} {p : Problem V} (hb : BuiltModel gm p)
    {solver : GM (Option V) → Option (List Nat) → List Nat} (hsol : FullResults solver) {ops : List SubOp}
    (hv : ValidSub p.numLabels.length (SubState.init p.numLabels.length) ops) (hne : (subAfter p.numLabels.length ops).selected ≠ [])
    (hL : p.Labeling (subAfter p.numLabels.length ops).labels) (warmStart : Bool) :
    ∃ s g b result, After gm solver ops s ∧ s.build = some (g, s) ∧ s.inferSubmodel solver warmStart = .ok (b, result) s ∧
      (BestLabeling g result → ∃ x, PutInto (subAfter p.numLabels.length ops).labels (subAfter p.numLabels.length ops).selected result x ∧ p.Labeling x ∧
        ∀ x', p.Labeling x' → (∀ v, v ∉ (subAfter p.numLabels.length ops).selected → x'[v]? = (subAfter p.numLabels.length ops).labels[v]?) →
          p.energy (sumOp V) x ≤ p.energy (sumOp V) x') := by
  obtain ⟨s, h1, hH⟩ := after_holds hb hsol hv
  obtain ⟨s1, g, b, result, h1', h2, h3, h4, _⟩ := C90_infer hb hsol hv hne warmStart
  obtain ⟨s2, g2, c, k1, k2, k3⟩ := C90_offset (sumOp V) sumOp_comm hb hsol hv
  obtain ⟨s3, g3, l1, l2, l3, _⟩ := C90_submodel (sumOp V) sumOp_comm hb hsol hv
  unfold After at h1 h1' k1 l1
  rw [h1] at h1' k1 l1
  cases h1'
  cases k1
  cases l1
  rw [h2] at k2 l2
  cases k2
  cases l2
  refine ⟨s, g, b, result, h1, h2, h3, ?_⟩
  rintro ⟨hlab, hbest⟩
  have hlen : ∀ y, LabelingOf g y → y.length = (subAfter p.numLabels.length ops).selected.length := by
    intro y hy
    rw [hy.1, l3]
    simp [restrict]
  obtain ⟨x, hm, hx⟩ := merged_exists hL hH.sorted hH.range (hlen result hlab) (by rw [← l3]; exact hlab.2)
  refine ⟨x, hm, hx, ?_⟩
  intro x' hx' hout
  have hm' : PutInto (subAfter p.numLabels.length ops).labels (subAfter p.numLabels.length ops).selected (restrict x' (subAfter p.numLabels.length ops).selected) x' := by
    refine ⟨by rw [hx'.1, hL.1], by simp [restrict], ?_, hout⟩
    intro i v hv
    have hlt : v < x'.length := by rw [hx'.1]; exact hH.range v (List.mem_of_getElem? hv)
    simp [restrict, hv, List.getElem?_eq_getElem hlt]
  obtain ⟨e, e1, e2⟩ := k3 result x hm hx
  obtain ⟨e', e1', e2'⟩ := k3 _ x' hm' hx'
  rw [e2, e2']
  have hl' := merged_labeling hH.range hx' hm' []
  exact add_le_add (hbest _ (by
    refine ⟨by rw [l3]; exact hl'.1, ?_⟩
    rw [l3]
    exact hl'.2) e e' e1 e1') (le_refl c)

/-- C90: `inSubmodel` tells which variables are selected, `submodelSize` how many. -/
theorem C90_queries {gm : GM V} {p : Problem V} (hb : BuiltModel gm p) {solver : GM (Option V) → Option (List Nat) → List Nat}
    (hsol : FullResults solver) {ops : List SubOp} (hv : ValidSub p.numLabels.length (SubState.init p.numLabels.length) ops) :
    ∃ s, After gm solver ops s ∧ s.submodelSize = (subAfter p.numLabels.length ops).selected.length ∧
      ∀ v, v < p.numLabels.length → s.isInSubmodel v = some (decide (v ∈ (subAfter p.numLabels.length ops).selected)) := by
  obtain ⟨s, h1, h2⟩ := after_holds hb hsol hv
  exact ⟨s, h1, h2.count, h2.inSub⟩

/-- C90: variables cannot be selected twice, a selection that does not exist cannot be given up or optimised: such calls throw and change nothing. -/
theorem C90_rejected {gm : GM V} {p : Problem V} (hb : BuiltModel gm p) {solver : GM (Option V) → Option (List Nat) → List Nat}
    (hsol : FullResults solver) {ops : List SubOp} (hv : ValidSub p.numLabels.length (SubState.init p.numLabels.length) ops) :
    ∃ s, After gm solver ops s ∧
      ((subAfter p.numLabels.length ops).selected ≠ [] → ∀ vs, s.setVariableIndices vs = .throw s) ∧
      ((subAfter p.numLabels.length ops).selected = [] → s.unsetVariableIndices = .throw s ∧ ∀ warmStart, s.inferSubmodel solver warmStart = .throw s) := by
  obtain ⟨s, h1, h2⟩ := after_holds hb hsol hv
  refine ⟨s, h1, ?_, ?_⟩
  · intro hne vs
    unfold Opt.setVariableIndices
    rw [if_neg (by rw [h2.count]; exact fun hz => hne (List.length_eq_zero_iff.mp hz))]
  · intro he
    have hc : s.nLocalVar = 0 := by rw [h2.count, he]; rfl
    refine ⟨?_, fun w => ?_⟩
    · unfold Opt.unsetVariableIndices
      rw [if_neg (by omega)]
    · unfold Opt.inferSubmodel
      rw [if_pos hc]

/-! ### Examples -/

/-- Three variables with 2, 3 and 2 labels; a term for variable 1, one for 0 and 1, one for 1 and 2, one for all, one for variable 0. -/
def exampleOps : List (BuildOp Int) :=
  [.addVariable 2, .addVariable 3, .addVariable 2, .addFunction 0 ⟨[3], fun c => match c with | [1] => -4 | _ => 0⟩,
    .addFunction 0 ⟨[2, 3], fun c => match c with | [a, b] => 5 * a + b | _ => 0⟩,
    .addFunction 0 ⟨[3, 2], fun c => match c with | [a, b] => a + 7 * b | _ => 0⟩, .addFunction 0 ⟨[2, 3, 2], fun c => match c with | [a, b, d] => a + b * d | _ => 0⟩,
    .addFunction 0 ⟨[2], fun c => match c with | [a] => 100 * a | _ => 0⟩,
    .addFactor 0 [1], .addFactor 1 [0, 1], .addFactor 2 [1, 2], .addFactor 3 [0, 1, 2], .addFactor 4 [0]]

theorem example_valid : ValidHistory 1 Built.empty exampleOps := by
  simp [exampleOps, ValidHistory, BuildOp.Valid, BuildOp.apply, Built.empty, restrict]

/-- A subsolver that returns zeros. -/
def zeros : GM (Option Int) → Option (List Nat) → List Nat := fun g _ => List.replicate g.numberOfVariables 0

theorem zeros_full : FullResults zeros := fun _ _ => by simp [zeros]

/-- The hypotheses of `C90_submodel`, `C90_offset`, `C90_infer`, `C90_queries`, `C90_rejected` are met, with a selection of two of three variables after an earlier selection. -/
example : ∃ (gm : GM Int) (p : Problem Int) (ops : List SubOp), BuiltModel gm p ∧ FullResults zeros ∧
    ValidSub p.numLabels.length (SubState.init p.numLabels.length) ops ∧ (subAfter p.numLabels.length ops).selected = [1, 2] ∧ (subAfter p.numLabels.length ops).labels = [1, 2, 0] ∧
    (∃ y x, PutInto [1, 2, 0] [1, 2] y x ∧ p.Labeling x ∧ (p.touching [1, 2]).energy (sumOp Int) x = 12 ∧ p.energy (sumOp Int) x = 112) := by
  obtain ⟨gm, hgm⟩ := builtModel_exists example_valid
  refine ⟨gm, _, [.setLabel 0 1, .select [0], .infer false, .unselect, .setLabel 1 2, .select [1, 2], .infer true], hgm, zeros_full, ?_, by decide, by decide, [1, 1], [1, 1, 1], ?_, ?_, ?_, ?_⟩
  · simp [exampleOps, builtAfter, BuildOp.apply, Built.empty, Built.problem, ValidSub, SubOp.Valid, SubOp.apply, SubState.init]
  · refine ⟨rfl, rfl, ?_, ?_⟩
    · intro i v h
      match i, h with
      | 0, h => simp at h; subst h; rfl
      | 1, h => simp at h; subst h; rfl
      | i + 2, h => simp at h
    · intro v h
      match v, h with
      | 0, _ => rfl
      | 1, h => simp at h
      | 2, h => simp at h
      | v + 3, _ => rfl
  · refine ⟨rfl, ?_⟩
    intro v l n h1 h2
    match v, h1, h2 with
    | 0, h1, h2 => simp [exampleOps, builtAfter, BuildOp.apply, Built.empty, Built.problem] at h1 h2; omega
    | 1, h1, h2 => simp [exampleOps, builtAfter, BuildOp.apply, Built.empty, Built.problem] at h1 h2; omega
    | 2, h1, h2 => simp [exampleOps, builtAfter, BuildOp.apply, Built.empty, Built.problem] at h1 h2; omega
    | v + 3, h1, h2 => simp at h1
  · decide +kernel
  · decide +kernel

/-- `C90_optimal`: the hypotheses are met, and in this case the result of the subsolver is a best labeling of the submodel of variable 0. -/
example : ∃ (gm : GM Int) (p : Problem Int) (ops : List SubOp), BuiltModel gm p ∧ ValidSub p.numLabels.length (SubState.init p.numLabels.length) ops ∧
    (subAfter p.numLabels.length ops).selected = [0] ∧ p.Labeling (subAfter p.numLabels.length ops).labels ∧
    ∃ s g, After gm zeros ops s ∧ s.build = some (g, s) ∧ BestLabeling g (zeros g none) := by
  obtain ⟨gm, hgm⟩ := builtModel_exists example_valid
  have hv : ValidSub (builtAfter exampleOps).problem.numLabels.length (SubState.init (builtAfter exampleOps).problem.numLabels.length) [.setLabel 1 2, .select [0]] := by
    simp [exampleOps, builtAfter, BuildOp.apply, Built.empty, Built.problem, ValidSub, SubOp.Valid, SubOp.apply, SubState.init]
  have hlab : ∀ a, a < 2 → (builtAfter exampleOps).problem.Labeling [a, 2, 0] := by
    intro a ha
    refine ⟨rfl, ?_⟩
    intro v l n h1 h2
    match v, h1, h2 with
    | 0, h1, h2 => simp [exampleOps, builtAfter, BuildOp.apply, Built.empty, Built.problem] at h1 h2; omega
    | 1, h1, h2 => simp [exampleOps, builtAfter, BuildOp.apply, Built.empty, Built.problem] at h1 h2; omega
    | 2, h1, h2 => simp [exampleOps, builtAfter, BuildOp.apply, Built.empty, Built.problem] at h1 h2; omega
    | v + 3, h1, h2 => simp at h1
  refine ⟨gm, _, [.setLabel 1 2, .select [0]], hgm, hv, by decide, hlab 0 (by omega), ?_⟩
  obtain ⟨s, g, h1, h2, h3, h4⟩ := C90_submodel (sumOp Int) sumOp_comm hgm zeros_full hv
  have hn : g.numLabels = [2] := h3
  have hz : zeros g none = [0] := by simp [zeros, GM.numberOfVariables, hn]
  have hst : subAfter (builtAfter exampleOps).problem.numLabels.length [.setLabel 1 2, .select [0]] = ⟨[0, 2, 0], [0]⟩ := rfl
  rw [hst] at h4
  have hmerged : ∀ a, PutInto [0, 2, 0] [0] [a] [a, 2, 0] := by
    intro a
    refine ⟨rfl, rfl, ?_, ?_⟩
    · intro i v h
      match i, h with
      | 0, h => simp at h; subst h; rfl
      | i + 1, h => simp at h
    · intro v h
      match v, h with
      | 0, h => simp at h
      | 1, _ => rfl
      | 2, _ => rfl
      | v + 3, _ => rfl
  have e0 := h4 [0] [0, 2, 0] (hmerged 0) (hlab 0 (by omega))
  have e1 := h4 [1] [1, 2, 0] (hmerged 1) (hlab 1 (by omega))
  refine ⟨s, g, h1, h2, ?_⟩
  rw [hz]
  refine ⟨⟨by rw [hn]; rfl, ?_⟩, ?_⟩
  · intro i l n hi hni
    rw [hn] at hni
    match i, hi, hni with
    | 0, hi, hni => simp at hi hni; omega
    | i + 1, hi, _ => simp at hi
  · intro y' hy' e e' he he'
    obtain ⟨hy1, hy2⟩ := hy'
    rw [hn] at hy1 hy2
    match y', hy1, hy2, he' with
    | [a], _, hy2, he' =>
      have ha := hy2 0 a 2 rfl rfl
      rw [e0] at he
      have hc : a = 0 ∨ a = 1 := by omega
      rcases hc with rfl | rfl
      · rw [e0] at he'
        cases he
        cases he'
        exact le_refl _
      · rw [e1] at he'
        cases he
        cases he'
        decide +kernel

end Submodel
end OpenGM
