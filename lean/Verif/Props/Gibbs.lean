import Verif.Lemmas.Gibbs
import Verif.Props.Movemaker
import Mathlib.Algebra.Order.Field.Basic
import Mathlib.Algebra.Order.Field.Rat
import Mathlib.Tactic.Linarith
import Mathlib.Tactic.NormNum
/-
C75: Gibbs. The random numbers are arbitrary.
-/
namespace OpenGM
open Spec Gibbs
variable {V : Type} [DecidableEq V]

/-- The objects that a user can reach: constructor, setStartingPoint, reset and infer, with any random numbers. The flag says whether the last start was given by the user (the parameter `startPoint`, or
setStartingPoint). -/
inductive GibbsReachable (o : InvOperation V) (multiplier : Bool) (bop : V → V → Bool) (neutral : V) (gm : GM V) (p : Problem V) : Bool → Obj V → Prop
  | construct {parameter : Parameter} {g : Obj V} (hs : parameter.startPoint = [] ∨ p.Labeling parameter.startPoint) (h : Gibbs.construct o neutral gm parameter = .ok g ()) :
      GibbsReachable o multiplier bop neutral gm p (decide (parameter.startPoint ≠ [])) g
  | start {b : Bool} {g g' : Obj V} {y : List Nat} (hg : GibbsReachable o multiplier bop neutral gm p b g) (hy : p.Labeling y) (h : setStartingPoint o g y = some g') : GibbsReachable o multiplier bop neutral gm p true g'
  | reset {b : Bool} {g g' : Obj V} (hg : GibbsReachable o multiplier bop neutral gm p b g) (h : Gibbs.reset o g = .ok () g') : GibbsReachable o multiplier bop neutral gm p (decide (g.parameter.startPoint ≠ [])) g'
  | infer {b : Bool} {g g' : Obj V} {draw : Nat → Draw V} {seen : List (List Nat)} (hg : GibbsReachable o multiplier bop neutral gm p b g) (h : Gibbs.infer o multiplier bop draw g = some (g', seen)) :
      GibbsReachable o multiplier bop neutral gm p b g'

section
variable {o : InvOperation V} {multiplier : Bool} {bop : V → V → Bool} {neutral : V} {gm : GM V} {p : Problem V}

omit [DecidableEq V] in
theorem gibbs_construct (hb : BuiltModel gm p) (hne : p.numLabels ≠ []) (hpos : ∀ n ∈ p.numLabels, 0 < n) (hirr : ∀ a, bop a a = false) {parameter : Parameter} (hs : parameter.startPoint = [] ∨ p.Labeling parameter.startPoint) :
    ∃ g x, Gibbs.construct o neutral gm parameter = .ok g () ∧ Gibbs.Inv o gm p g x x ∧ g.parameter = parameter ∧ (parameter.startPoint ≠ [] → x = parameter.startPoint ∧ Known o bop p g x x) := by
  have hst := hb.represents.toStores
  obtain ⟨m, e, ht, hg⟩ := Movemaker.ofModel_spec o hpos hst
  have hn : gm.numberOfVariables = p.numLabels.length := by rw [GM.numberOfVariables, hst.labels]
  unfold Gibbs.construct
  rw [e]
  simp only
  by_cases h0 : parameter.startPoint = []
  · rw [if_neg (by rw [h0]; simp), hn]
    exact ⟨_, _, rfl, ⟨rfl, ht, rfl, ht.labeling⟩, rfl, fun h => absurd h0 h⟩
  · have hy := hs.resolve_left h0
    obtain ⟨m', e', ht', hg'⟩ := Movemaker.initializeFrom_spec ht _ hy
    rw [if_pos (by simpa using h0), if_pos (by rw [hn]; exact hy.1), e']
    exact ⟨_, _, rfl, ⟨rfl, ht', rfl, hy⟩, rfl, fun _ => ⟨rfl, ht'.energy, by simp only [Movemaker.value, ht'.energy]; exact hirr _⟩⟩

omit [DecidableEq V] in
theorem gibbs_start (hirr : ∀ a, bop a a = false) {g : Obj V} {x y : List Nat} (h : Gibbs.Inv o gm p g x y) {z : List Nat} (hz : p.Labeling z) (hst : Stores gm p) :
    ∃ g', setStartingPoint o g z = some g' ∧ Gibbs.Inv o gm p g' z z ∧ g'.parameter = g.parameter ∧ Known o bop p g' z z := by
  obtain ⟨m', e', ht', _⟩ := Movemaker.initializeFrom_spec h.tracks z hz
  have hn : g.gm.numberOfVariables = p.numLabels.length := by rw [h.model, GM.numberOfVariables, hst.labels]
  unfold setStartingPoint
  rw [e']
  simp only
  rw [hn, ht'.state, h.best, if_pos ⟨by rw [hz.1], by rw [h.labeling.1]⟩]
  refine ⟨_, rfl, ⟨h.model, ht', ?_, hz⟩, rfl, ht'.energy, by simp only [Movemaker.value, ht'.energy]; exact hirr _⟩
  simp only
  rw [← hz.1, List.take_length]

omit [DecidableEq V] in
theorem gibbs_reset (hpos : ∀ n ∈ p.numLabels, 0 < n) (hirr : ∀ a, bop a a = false) {g : Obj V} {x y : List Nat} (h : Gibbs.Inv o gm p g x y) (hs : g.parameter.startPoint = [] ∨ p.Labeling g.parameter.startPoint) (hst : Stores gm p) :
    ∃ g' z, Gibbs.reset o g = .ok () g' ∧ Gibbs.Inv o gm p g' z z ∧ g'.parameter = g.parameter ∧ (g.parameter.startPoint ≠ [] → z = g.parameter.startPoint ∧ Known o bop p g' z z) := by
  have hn : g.gm.numberOfVariables = p.numLabels.length := by rw [h.model, GM.numberOfVariables, hst.labels]
  unfold Gibbs.reset
  by_cases h0 : g.parameter.startPoint = []
  · obtain ⟨m', e', ht', _⟩ := Movemaker.reset_spec hpos h.tracks
    rw [if_neg (by rw [h0]; simp), e']
    refine ⟨_, _, rfl, ⟨h.model, ht', ?_, ht'.labeling⟩, rfl, fun h => absurd h0 h⟩
    simp only
    rw [h.best, h.labeling.1]
  · have hy := hs.resolve_left h0
    obtain ⟨m', e', ht', hg'⟩ := Movemaker.initializeFrom_spec h.tracks _ hy
    rw [if_pos (by simpa using h0), if_pos (by rw [hn]; exact hy.1), e']
    exact ⟨_, _, rfl, ⟨h.model, ht', rfl, hy⟩, rfl, fun _ => ⟨rfl, ht'.energy, by simp only [Movemaker.value, ht'.energy]; exact hirr _⟩⟩

/-- What holds for all reachable objects. -/
theorem gibbs_inv (hb : BuiltModel gm p) (hne : p.numLabels ≠ []) (hpos : ∀ n ∈ p.numLabels, 0 < n) (ho : multiplier = true ∨ o.Laws) (hord : StrictOrder bop) (htot : ∀ a b, bop a b = false → bop b a = false → a = b)
    {b : Bool} {g : Obj V} (h : GibbsReachable o multiplier bop neutral gm p b g) :
    ∃ x y, Gibbs.Inv o gm p g x y ∧ (g.parameter.startPoint = [] ∨ p.Labeling g.parameter.startPoint) ∧ (b = true → Known o bop p g x y) := by
  have hst := hb.represents.toStores
  induction h with
  | construct hs h =>
    obtain ⟨g', x, e1, e2, e3, e4⟩ := gibbs_construct (o := o) (neutral := neutral) (bop := bop) hb hne hpos hord.irrefl hs
    rw [h] at e1; cases e1
    exact ⟨x, x, e2, by rw [e3]; exact hs, fun h' => (e4 (by simpa using h')).2⟩
  | start hg hy h ih =>
    obtain ⟨x, y, i1, i2, _⟩ := ih
    obtain ⟨g', e1, e2, e3, e4⟩ := gibbs_start (bop := bop) hord.irrefl i1 hy hst
    rw [h] at e1; cases e1
    exact ⟨_, _, e2, by rw [e3]; exact i2, fun _ => e4⟩
  | reset hg h ih =>
    obtain ⟨x, y, i1, i2, _⟩ := ih
    obtain ⟨g', z, e1, e2, e3, e4⟩ := gibbs_reset (bop := bop) hpos hord.irrefl i1 i2 hst
    rw [h] at e1; cases e1
    exact ⟨_, _, e2, by rw [e3]; exact i2, fun h' => (e4 (by simpa using h')).2⟩
  | @infer b g g' draw seen hg h ih =>
    obtain ⟨x, y, i1, i2, i3⟩ := ih
    unfold Gibbs.infer at h
    simp only at h
    obtain ⟨g2, seen2, x', y', e1, e2, e3, _, _, _, _, _, _, e4⟩ := loop_spec ho hord.irrefl hst hne hpos draw (g.parameter.maxNumberOfSamplingSteps + g.parameter.numberOfBurnInSteps)
      (g.parameter.maxNumberOfSamplingSteps + g.parameter.numberOfBurnInSteps + 1) 0 g x y (by omega) (by omega) i1
    rw [h] at e1; cases e1
    exact ⟨x', y', e2, by rw [e3]; exact i2, fun hb' => (e4 hord htot (i3 hb')).1⟩

/-- C75: the operations never fail: the constructor, without a start point or with a labeling; setStartingPoint with a labeling; reset; and infer, with any random numbers. -/
theorem C75_total (hb : BuiltModel gm p) (hne : p.numLabels ≠ []) (hpos : ∀ n ∈ p.numLabels, 0 < n) (ho : multiplier = true ∨ o.Laws) (hord : StrictOrder bop) (htot : ∀ a b, bop a b = false → bop b a = false → a = b) :
    (∀ parameter : Parameter, parameter.startPoint = [] ∨ p.Labeling parameter.startPoint → ∃ g, Gibbs.construct o neutral gm parameter = .ok g ()) ∧
    (∀ b g, GibbsReachable o multiplier bop neutral gm p b g →
      (∀ y, p.Labeling y → ∃ g', setStartingPoint o g y = some g' ∧ g'.movemaker.state = y ∧ arg g' = some y) ∧
      (∃ g', Gibbs.reset o g = .ok () g') ∧ ∀ draw, ∃ g' seen, Gibbs.infer o multiplier bop draw g = some (g', seen)) := by
  have hst := hb.represents.toStores
  constructor
  · intro parameter hs
    obtain ⟨g, _, e1, _⟩ := gibbs_construct (o := o) (neutral := neutral) (bop := bop) hb hne hpos hord.irrefl hs
    exact ⟨g, e1⟩
  · intro b g h
    obtain ⟨x, y, i1, i2, _⟩ := gibbs_inv hb hne hpos ho hord htot h
    refine ⟨?_, ?_, ?_⟩
    · intro z hz
      obtain ⟨g', e1, e2, _⟩ := gibbs_start (bop := bop) hord.irrefl i1 hz hst
      refine ⟨g', e1, e2.tracks.state, ?_⟩
      unfold arg
      rw [e2.model, GM.numberOfVariables, hst.labels, e2.best, if_pos (by rw [hz.1]), ← hz.1, List.take_length]
    · obtain ⟨g', z, e1, _⟩ := gibbs_reset (bop := bop) hpos hord.irrefl i1 i2 hst
      exact ⟨g', e1⟩
    · intro draw
      obtain ⟨g', seen, _, _, e1, _⟩ := loop_spec (multiplier := multiplier) (bop := bop) ho hord.irrefl hst hne hpos draw (g.parameter.maxNumberOfSamplingSteps + g.parameter.numberOfBurnInSteps)
        (g.parameter.maxNumberOfSamplingSteps + g.parameter.numberOfBurnInSteps + 1) 0 g x y (by omega) (by omega) i1
      exact ⟨g', seen, e1⟩

/-- C75: in every reachable object, the Markov state is a labeling, `markovValue` is its value, and `arg` is a labeling. -/
theorem C75_valid (hb : BuiltModel gm p) (hne : p.numLabels ≠ []) (hpos : ∀ n ∈ p.numLabels, 0 < n) (ho : multiplier = true ∨ o.Laws) (hord : StrictOrder bop) (htot : ∀ a b, bop a b = false → bop b a = false → a = b)
    {b : Bool} {g : Obj V} (h : GibbsReachable o multiplier bop neutral gm p b g) :
    p.Labeling g.movemaker.state ∧ g.movemaker.value = p.energy o.toOperation g.movemaker.state ∧ ∃ y, arg g = some y ∧ p.Labeling y := by
  obtain ⟨x, y, i1, _⟩ := gibbs_inv hb hne hpos ho hord htot h
  refine ⟨by rw [i1.tracks.state]; exact i1.tracks.labeling, by rw [i1.tracks.state]; exact i1.tracks.energy, y, ?_, i1.labeling⟩
  unfold arg
  rw [i1.model, GM.numberOfVariables, hb.represents.labels, i1.best, if_pos (by rw [i1.labeling.1]), ← i1.labeling.1, List.take_length]

/-- C75 (partial), for a start that the user gave: `currentBestValue` is the value of `arg`; after infer, `arg` is the old one or one of the states at the calls of the visitor, and neither the old one nor any of these
states is better. Missing: the default start, see `C75_violated_default` and `C75_violated_reset`. -/
theorem C75_best_partial (hb : BuiltModel gm p) (hne : p.numLabels ≠ []) (hpos : ∀ n ∈ p.numLabels, 0 < n) (ho : multiplier = true ∨ o.Laws) (hord : StrictOrder bop) (htot : ∀ a b, bop a b = false → bop b a = false → a = b)
    {g : Obj V} (h : GibbsReachable o multiplier bop neutral gm p true g) :
    ∃ y, arg g = some y ∧ g.currentBestValue = p.energy o.toOperation y ∧ bop (p.energy o.toOperation g.movemaker.state) (p.energy o.toOperation y) = false ∧
      ∀ draw g' seen, Gibbs.infer o multiplier bop draw g = some (g', seen) → ∃ y', arg g' = some y' ∧ g'.currentBestValue = p.energy o.toOperation y' ∧ (y' = y ∨ y' ∈ seen) ∧
        bop (p.energy o.toOperation y) (p.energy o.toOperation y') = false ∧ ∀ z ∈ seen, p.Labeling z ∧ bop (p.energy o.toOperation z) (p.energy o.toOperation y') = false := by
  have hst := hb.represents.toStores
  obtain ⟨x, y, i1, _, i3⟩ := gibbs_inv hb hne hpos ho hord htot h
  have hk := i3 rfl
  have harg : ∀ {g : Obj V} {x y : List Nat}, Gibbs.Inv o gm p g x y → arg g = some y := by
    intro g x y i
    unfold arg
    rw [i.model, GM.numberOfVariables, hst.labels, i.best, if_pos (by rw [i.labeling.1]), ← i.labeling.1, List.take_length]
  refine ⟨y, harg i1, hk.1, ?_, ?_⟩
  · rw [i1.tracks.state, ← hk.1]; exact hk.2
  · intro draw g' seen hi
    unfold Gibbs.infer at hi
    simp only at hi
    obtain ⟨g2, seen2, x', y', e1, e2, e3, e5, _, e6, _, _, _, e4⟩ := loop_spec ho hord.irrefl hst hne hpos draw (g.parameter.maxNumberOfSamplingSteps + g.parameter.numberOfBurnInSteps)
      (g.parameter.maxNumberOfSamplingSteps + g.parameter.numberOfBurnInSteps + 1) 0 g x y (by omega) (by omega) i1
    rw [hi] at e1; cases e1
    obtain ⟨k1, k2, k3⟩ := e4 hord htot hk
    refine ⟨y', harg e2, k1.1, e6, ?_, ?_⟩
    · rw [← hk.1, ← k1.1]; exact k2
    · intro z hz
      refine ⟨e5 z hz, ?_⟩
      rw [← k1.1]; exact k3 z hz

/-- C75 (violated): `maxNumberOfSamplingSteps` and `numberOfBurnInSteps`: each proposal of another label counts twice, so that there are at most half as many samples, for every model and all random numbers. -/
theorem C75_violated_steps (hb : BuiltModel gm p) (hne : p.numLabels ≠ []) (hpos : ∀ n ∈ p.numLabels, 0 < n) (ho : multiplier = true ∨ o.Laws) (hord : StrictOrder bop) (htot : ∀ a b, bop a b = false → bop b a = false → a = b)
    {b : Bool} {g g' : Obj V} (h : GibbsReachable o multiplier bop neutral gm p b g) {draw : Nat → Draw V} {seen : List (List Nat)} (hi : Gibbs.infer o multiplier bop draw g = some (g', seen)) :
    2 * seen.length ≤ g.parameter.maxNumberOfSamplingSteps + g.parameter.numberOfBurnInSteps + 1 := by
  have hst := hb.represents.toStores
  obtain ⟨x, y, i1, _, _⟩ := gibbs_inv hb hne hpos ho hord htot h
  unfold Gibbs.infer at hi
  simp only at hi
  obtain ⟨g2, seen2, x', y', e1, _, _, _, _, _, _, e, _⟩ := loop_spec ho hord.irrefl hst hne hpos draw (g.parameter.maxNumberOfSamplingSteps + g.parameter.numberOfBurnInSteps)
    (g.parameter.maxNumberOfSamplingSteps + g.parameter.numberOfBurnInSteps + 1) 0 g x y (by omega) (by omega) i1
  rw [hi] at e1; cases e1
  simpa using e

/-- C75 (violated): CYCLIC: for every model with at least two variables, only variable 1 is ever changed by infer, with all random numbers: the other variables of the Markov states keep the labels of the start. -/
theorem C75_violated_cyclic (hb : BuiltModel gm p) (h2 : 2 ≤ p.numLabels.length) (hpos : ∀ n ∈ p.numLabels, 0 < n) (ho : multiplier = true ∨ o.Laws) (hord : StrictOrder bop) (htot : ∀ a b, bop a b = false → bop b a = false → a = b)
    {b : Bool} {g g' : Obj V} (h : GibbsReachable o multiplier bop neutral gm p b g) (hc : g.parameter.variableProposal = .cyclic) {draw : Nat → Draw V} {seen : List (List Nat)}
    (hi : Gibbs.infer o multiplier bop draw g = some (g', seen)) : ∀ z ∈ seen, ∀ v : Nat, v ≠ 1 → z[v]? = g.movemaker.state[v]? := by
  have hst := hb.represents.toStores
  have hne : p.numLabels ≠ [] := by intro h'; rw [h'] at h2; simp at h2
  obtain ⟨x, y, i1, _, _⟩ := gibbs_inv hb hne hpos ho hord htot h
  unfold Gibbs.infer at hi
  simp only at hi
  obtain ⟨g2, seen2, x', y', e1, _, _, _, _, _, _, _, e, _⟩ := loop_spec ho hord.irrefl hst hne hpos draw (g.parameter.maxNumberOfSamplingSteps + g.parameter.numberOfBurnInSteps)
    (g.parameter.maxNumberOfSamplingSteps + g.parameter.numberOfBurnInSteps + 1) 0 g x y (by omega) (by omega) i1
  rw [hi] at e1; cases e1
  rw [i1.tracks.state]
  exact e hc h2

end

/-! ### The acceptance rule -/

section
variable {F : Type} [Field F] [LinearOrder F] [IsStrictOrderedRing F]

/-- Products, with division. -/
def mulDiv (F : Type) [Field F] : InvOperation F := ⟨⟨1, fun a b => a * b⟩, fun a b => a / b⟩

/-- A draw with Multiplier and Maximizer (gibbs.hxx 32-40): the random number `u` is compared with the quotient of the new and the old value. -/
def quotientDraw (variable_ label : Nat) (u : F) : Draw F := ⟨variable_, label, fun newValue oldValue => decide (u < newValue / oldValue)⟩

/-- C75: the acceptance rule is the one of Metropolis. With Multiplier and Maximizer and positive values, in each step with the random number `u` the proposed labeling `z` (the chosen variable gets the chosen label)
becomes the Markov state if and only if `u * value x < min (value x) (value z)`; so for uniform `u` the probability of the move times the value of the state is symmetric: detailed balance holds. Otherwise the
Markov state stays. -/
theorem C75_metropolis {neutral : F} {gm : GM F} {p : Problem F} (hb : BuiltModel gm p) (hne : p.numLabels ≠ []) (hpos : ∀ n ∈ p.numLabels, 0 < n) (hval : ∀ x, p.Labeling x → 0 < p.energy (mulDiv F).toOperation x)
    {b : Bool} {g : Obj F} (h : GibbsReachable (mulDiv F) true (fun a b => decide (b < a)) neutral gm p b g) (hr : g.parameter.variableProposal = .random) {v l n : Nat} (hn : p.numLabels[v]? = some n) (hl : l < n) {u : F} (hu : 0 ≤ u) (hu1 : u < 1) :
    ∃ g' changed z, step (mulDiv F) true (fun a b => decide (b < a)) (quotientDraw v l u) g = some (g', changed) ∧ Relabelled g.movemaker.state [v] [l] z ∧
      (u * p.energy (mulDiv F).toOperation g.movemaker.state < min (p.energy (mulDiv F).toOperation g.movemaker.state) (p.energy (mulDiv F).toOperation z) → g'.movemaker.state = z) ∧
      (min (p.energy (mulDiv F).toOperation g.movemaker.state) (p.energy (mulDiv F).toOperation z) ≤ u * p.energy (mulDiv F).toOperation g.movemaker.state → g'.movemaker.state = g.movemaker.state) := by
  have hst := hb.represents.toStores
  have hord : StrictOrder (fun a b : F => decide (b < a)) := ⟨fun a => by simp, fun a b c h1 h2 => by simp only [decide_eq_true_eq] at *; exact lt_trans h2 h1⟩
  have htot : ∀ a b : F, decide (b < a) = false → decide (a < b) = false → a = b := fun a b h1 h2 => by
    simp only [decide_eq_false_iff_not, not_lt] at h1 h2; exact le_antisymm h1 h2
  obtain ⟨x, y, i1, _, _⟩ := gibbs_inv hb hne hpos (Or.inl rfl) hord htot h
  obtain ⟨g', changed, x', y', z, e1, e2, _, e4⟩ := step_spec (multiplier := true) (bop := fun a b : F => decide (b < a)) (Or.inl rfl) hord.irrefl hst hne hpos (quotientDraw v l u) i1
  obtain ⟨v', l', v1, v2, v3, v4, _⟩ := e4.proposed
  have hvn := (List.getElem?_eq_some_iff.mp hn).1
  have hv' : v' = v := by
    rw [v1, hr]
    exact Nat.mod_eq_of_lt hvn
  subst hv'
  have hl' : l' = l := by
    rw [v3, List.getD_eq_getElem?_getD, hn]
    exact Nat.mod_eq_of_lt hl
  subst hl'
  rw [i1.tracks.state]
  have hx := hval x i1.tracks.labeling
  have hz := hval z e4.labeling
  refine ⟨g', changed, z, e1, ?_, ?_, ?_⟩
  · rw [v4]
    exact fill_relabelled x [v'] [l'] (by simp) (fun w hw => by simp only [List.mem_singleton] at hw; rw [hw, i1.tracks.labeling.1]; exact v2)
  · intro hlt
    rw [e2.tracks.state, e4.next, if_pos]
    simp only [quotientDraw, Bool.or_eq_true, decide_eq_true_eq]
    right
    rw [lt_div_iff₀ hx]
    exact lt_of_lt_of_le hlt (min_le_right _ _)
  · intro hle
    rw [e2.tracks.state, e4.next, if_neg]
    simp only [quotientDraw, Bool.or_eq_true, decide_eq_true_eq, not_or, not_lt]
    have h1 : u * p.energy (mulDiv F).toOperation x < p.energy (mulDiv F).toOperation x := by
      have := mul_lt_mul_of_pos_right hu1 hx
      rwa [one_mul] at this
    rcases min_le_iff.mp hle with h2 | h2
    · exact absurd h2 (not_le.mpr h1)
    · refine ⟨le_of_lt (lt_of_le_of_lt h2 h1), ?_⟩
      rw [div_le_iff₀ hx]
      exact h2

end

/-! ### Examples and violations -/

/-- Two variables with two labels, and a term of both: the labeling (0,0) has value 0, (0,1) has 5, (1,0) has 9, (1,1) has 4. -/
def gibbsOps : List (BuildOp Int) :=
  [.addVariable 2, .addVariable 2, .addFunction 0 ⟨[2, 2], fun c => if c = [0, 0] then 0 else if c = [0, 1] then 5 else if c = [1, 0] then 9 else 4⟩, .addFactor 0 [0, 1]]

theorem gibbsOps_valid : ValidHistory 1 Built.empty gibbsOps := by
  simp [gibbsOps, ValidHistory, BuildOp.Valid, BuildOp.apply, Built.empty, restrict]

/-- Minimizer -/
def lessInt (a b : Int) : Bool := decide (a < b)

/-- The random numbers choose variable 1, label 1, then variable 0, label 1; all are accepted. -/
def gibbsDraw (i : Nat) : Draw Int := if i = 0 then ⟨1, 1, fun _ _ => true⟩ else ⟨0, 1, fun _ _ => true⟩

/-- The hypotheses of `C75_best_partial` are met: with a start point, after two moves the Markov state is (1,1) with value 4, and the best state is still the start. -/
example : ∃ (gm : GM Int) (g g' : Obj Int) (seen : List (List Nat)), BuiltModel gm (builtAfter gibbsOps).problem ∧ GibbsReachable intAddSub false lessInt 1000 gm (builtAfter gibbsOps).problem true g ∧
    Gibbs.infer intAddSub false lessInt gibbsDraw g = some (g', seen) ∧ seen = [[0, 1], [1, 1]] ∧ arg g' = some [0, 0] ∧ g'.currentBestValue = 0 := by
  obtain ⟨c, h1⟩ : ∃ c, (Client.init 1).run (fun _ _ => false) gibbsOps = .ok () c := ⟨_, rfl⟩
  obtain ⟨g, hg⟩ : ∃ g, Gibbs.construct intAddSub 1000 c.gm ⟨4, 0, .random, [0, 0]⟩ = .ok g () := by cases h1; exact ⟨_, rfl⟩
  obtain ⟨r, hr⟩ : ∃ r, Gibbs.infer intAddSub false lessInt gibbsDraw g = some r := by cases h1; cases hg; exact ⟨_, rfl⟩
  refine ⟨c.gm, g, r.1, r.2, ⟨1, _, gibbsOps, c, eqvSound_false, gibbsOps_valid, h1, rfl, rfl⟩, .construct (Or.inr ?_) hg, hr, ?_⟩
  · refine ⟨rfl, ?_⟩
    intro v l n h2 h3
    match v with
    | 0 => cases h2; cases h3; decide
    | 1 => cases h2; cases h3; decide
    | v + 2 => simp at h2
  · cases h1
    cases hg
    cases hr
    decide +kernel

/-- C75 (violated): without a start point, the value of the start is not recorded: infer starts at (0,0) with value 0, which is optimal, visits (0,1) and (1,1), and then `arg` is (1,1) with value 4. -/
theorem C75_violated_default : ∃ (gm : GM Int) (g g' : Obj Int) (seen : List (List Nat)), BuiltModel gm (builtAfter gibbsOps).problem ∧ Gibbs.construct intAddSub 1000 gm ⟨4, 0, .random, []⟩ = .ok g () ∧
    g.movemaker.state = [0, 0] ∧ g.movemaker.value = 0 ∧ arg g = some [0, 0] ∧ Gibbs.infer intAddSub false lessInt gibbsDraw g = some (g', seen) ∧ arg g' = some [1, 1] ∧ g'.currentBestValue = 4 := by
  obtain ⟨c, h1⟩ : ∃ c, (Client.init 1).run (fun _ _ => false) gibbsOps = .ok () c := ⟨_, rfl⟩
  obtain ⟨g, hg⟩ : ∃ g, Gibbs.construct intAddSub 1000 c.gm ⟨4, 0, .random, []⟩ = .ok g () := by cases h1; exact ⟨_, rfl⟩
  obtain ⟨r, hr⟩ : ∃ r, Gibbs.infer intAddSub false lessInt gibbsDraw g = some r := by cases h1; cases hg; exact ⟨_, rfl⟩
  refine ⟨c.gm, g, r.1, r.2, ⟨1, _, gibbsOps, c, eqvSound_false, gibbsOps_valid, h1, rfl, rfl⟩, hg, ?_⟩
  cases h1
  cases hg
  cases hr
  refine ⟨rfl, rfl, rfl, rfl, ?_⟩
  decide +kernel

/-- The labeling (0,0) has value 9, (1,1) has value 1, the others 5. -/
def gibbsOps2 : List (BuildOp Int) :=
  [.addVariable 2, .addVariable 2, .addFunction 0 ⟨[2, 2], fun c => if c = [0, 0] then 9 else if c = [1, 1] then 1 else 5⟩, .addFactor 0 [0, 1]]

theorem gibbsOps2_valid : ValidHistory 1 Built.empty gibbsOps2 := by
  simp [gibbsOps2, ValidHistory, BuildOp.Valid, BuildOp.apply, Built.empty, restrict]

/-- C75 (violated): reset without a start point sets the best state to the labels 0 but keeps the best value. Here, after setStartingPoint at (1,1), with value 1, and reset, `currentBestValue` is 1 but the value of
`arg` is 9; and then infer visits (0,1) and (1,1), but `arg` stays at the worst labeling. -/
theorem C75_violated_reset : ∃ (gm : GM Int) (g0 g1 g2 g3 : Obj Int) (seen : List (List Nat)), BuiltModel gm (builtAfter gibbsOps2).problem ∧ Gibbs.construct intAddSub 1000 gm ⟨4, 0, .random, []⟩ = .ok g0 () ∧
    setStartingPoint intAddSub g0 [1, 1] = some g1 ∧ Gibbs.reset intAddSub g1 = .ok () g2 ∧ arg g2 = some [0, 0] ∧ g2.currentBestValue = 1 ∧
    Gibbs.infer intAddSub false lessInt gibbsDraw g2 = some (g3, seen) ∧ seen = [[0, 1], [1, 1]] ∧ arg g3 = some [0, 0] ∧ g3.movemaker.value = 1 := by
  obtain ⟨c, h1⟩ : ∃ c, (Client.init 1).run (fun _ _ => false) gibbsOps2 = .ok () c := ⟨_, rfl⟩
  obtain ⟨g, hg⟩ : ∃ g, Gibbs.construct intAddSub 1000 c.gm ⟨4, 0, .random, []⟩ = .ok g () := by cases h1; exact ⟨_, rfl⟩
  obtain ⟨g1, hg1⟩ : ∃ g1, setStartingPoint intAddSub g [1, 1] = some g1 := by cases h1; cases hg; exact ⟨_, rfl⟩
  obtain ⟨g2, hg2⟩ : ∃ g2, Gibbs.reset intAddSub g1 = .ok () g2 := by cases h1; cases hg; cases hg1; exact ⟨_, rfl⟩
  obtain ⟨r, hr⟩ : ∃ r, Gibbs.infer intAddSub false lessInt gibbsDraw g2 = some r := by cases h1; cases hg; cases hg1; cases hg2; exact ⟨_, rfl⟩
  refine ⟨c.gm, g, g1, g2, r.1, r.2, ⟨1, _, gibbsOps2, c, eqvSound_false, gibbsOps2_valid, h1, rfl, rfl⟩, hg, hg1, hg2, ?_⟩
  cases h1
  cases hg
  cases hg1
  cases hg2
  cases hr
  refine ⟨rfl, rfl, rfl, ?_⟩
  decide +kernel

/-- Two variables with two labels and positive values: 3 for equal labels, 1 otherwise. -/
def gibbsRatOps : List (BuildOp Rat) :=
  [.addVariable 2, .addVariable 2, .addFunction 0 ⟨[2, 2], fun c => if c = [0, 0] ∨ c = [1, 1] then 3 else 1⟩, .addFactor 0 [0, 1]]

theorem gibbsRatOps_valid : ValidHistory 1 Built.empty gibbsRatOps := by
  simp [gibbsRatOps, ValidHistory, BuildOp.Valid, BuildOp.apply, Built.empty, restrict]

/-- The hypotheses of `C75_metropolis` are met. -/
example : ∃ (gm : GM Rat) (g : Obj Rat), BuiltModel gm (builtAfter gibbsRatOps).problem ∧ GibbsReachable (mulDiv Rat) true (fun a b => decide (b < a)) 0 gm (builtAfter gibbsRatOps).problem false g ∧
    g.parameter.variableProposal = .random ∧ (∀ x, (builtAfter gibbsRatOps).problem.Labeling x → 0 < (builtAfter gibbsRatOps).problem.energy (mulDiv Rat).toOperation x) := by
  obtain ⟨c, h1⟩ : ∃ c, (Client.init 1).run (fun _ _ => false) gibbsRatOps = .ok () c := ⟨_, rfl⟩
  obtain ⟨g, hg⟩ : ∃ g, Gibbs.construct (mulDiv Rat) 0 c.gm ⟨4, 0, .random, []⟩ = .ok g () := by cases h1; exact ⟨_, rfl⟩
  refine ⟨c.gm, g, ⟨1, _, gibbsRatOps, c, eqvSound_false, gibbsRatOps_valid, h1, rfl, rfl⟩, .construct (Or.inl rfl) hg, by cases h1; cases hg; rfl, ?_⟩
  intro x hx
  have : (builtAfter gibbsRatOps).problem.energy (mulDiv Rat).toOperation x = 1 * (if restrict x [0, 1] = [0, 0] ∨ restrict x [0, 1] = [1, 1] then 3 else 1) := rfl
  rw [this]
  split <;> norm_num

/-- The hypotheses of `C75_violated_cyclic` are met: CYCLIC with the draws that choose variable 0 second. -/
example : ∃ (gm : GM Int) (g g' : Obj Int) (seen : List (List Nat)), BuiltModel gm (builtAfter gibbsOps).problem ∧ GibbsReachable intAddSub false lessInt 1000 gm (builtAfter gibbsOps).problem false g ∧
    g.parameter.variableProposal = .cyclic ∧ Gibbs.infer intAddSub false lessInt gibbsDraw g = some (g', seen) ∧ seen = [[0, 1]] := by
  obtain ⟨c, h1⟩ : ∃ c, (Client.init 1).run (fun _ _ => false) gibbsOps = .ok () c := ⟨_, rfl⟩
  obtain ⟨g, hg⟩ : ∃ g, Gibbs.construct intAddSub 1000 c.gm ⟨4, 0, .cyclic, []⟩ = .ok g () := by cases h1; exact ⟨_, rfl⟩
  obtain ⟨r, hr⟩ : ∃ r, Gibbs.infer intAddSub false lessInt gibbsDraw g = some r := by cases h1; cases hg; exact ⟨_, rfl⟩
  refine ⟨c.gm, g, r.1, r.2, ⟨1, _, gibbsOps, c, eqvSound_false, gibbsOps_valid, h1, rfl, rfl⟩, .construct (Or.inl rfl) hg, ?_, hr, ?_⟩
  · cases h1; cases hg; rfl
  · cases h1
    cases hg
    cases hr
    decide +kernel

end OpenGM
