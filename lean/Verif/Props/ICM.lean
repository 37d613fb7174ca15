import Verif.Lemmas.ICM
import Verif.Props.Movemaker
/-
C18, C19: the class ICM. A run is `Icm.construct` (with a start labeling, or the empty list for the default start) followed by
`Icm.infer`; more generally `infer` is called on an object whose Movemaker is any reachable one (`Reachable`), which covers
setStartingPoint, reset and repeated calls of infer.
-/
namespace OpenGM
open Spec
variable {V : Type}

/-- The constructor with a suitable start point gives a reachable Movemaker at that start point. -/
theorem C18_construct (o : InvOperation V) (multiplier : Bool) (gm : GM V) (p : Problem V) (hb : BuiltModel gm p)
    (hpos : ∀ n ∈ p.numLabels, 0 < n) :
    (∀ y, p.Labeling y → ∃ m, Icm.construct o gm y = some m ∧ m.state = y ∧ Reachable o multiplier gm p m) ∧
    (p.numLabels ≠ [] → ∃ m, Icm.construct o gm [] = some m ∧ m.state = List.replicate p.numLabels.length 0 ∧
      Reachable o multiplier gm p m) := by
  have hs := hb.represents.toStores
  obtain ⟨m, e, ht, hg⟩ := Movemaker.ofModel_spec o hpos hs
  have hr : Reachable o multiplier gm p m := .construct hpos e
  have hn : gm.numberOfVariables = p.numLabels.length := by rw [GM.numberOfVariables, hs.labels]
  constructor
  · intro y hy
    obtain ⟨m', e', ht', hg'⟩ := Movemaker.initializeFrom_spec ht y hy
    refine ⟨m', ?_, ht'.state, .initializeFrom y hr hy e'⟩
    unfold Icm.construct
    rw [e]
    simp only
    rw [if_pos (by rw [hn]; exact hy.1), e']
  · intro hne
    refine ⟨m, ?_, ht.state, hr⟩
    unfold Icm.construct
    rw [e]
    simp only
    rw [if_neg (by rw [hn]; cases hp : p.numLabels with | nil => exact absurd hp hne | cons a l => simp)]
    simp

/-- C18 (partial): if combining values preserves and reflects strict improvement (sums; products of positive numbers), then
from every state ICM terminates, `value()` is what `evaluate` returns for `arg()`, it is not worse than at the start (and the
labeling is unchanged unless it is strictly better), and no relabelling of a single variable improves it.
Missing: products with zeros, where the last claim is false (`C18_violated`). -/
theorem C18_icm_partial (o : InvOperation V) (multiplier : Bool) (ho : multiplier = true ∨ o.Laws) (gm : GM V) (p : Problem V)
    (hb : BuiltModel gm p) (bop : V → V → Bool) (hc : IcmContext o bop) (reevaluate : V → Bool)
    (m : Movemaker V) (h : Reachable o multiplier gm p m) :
    ∃ m', Icm.infer o multiplier bop reevaluate false m = some m' ∧
      p.Labeling m'.state ∧ gm.evaluate o.toOperation m'.state = some m'.value ∧
      (m'.state = m.state ∨ bop m'.value m.value = true) ∧
      ∀ v, v < p.numLabels.length → LocallyOptimal o.toOperation bop p [v] m'.state := by
  obtain ⟨x, ht, hg⟩ := h.tracks ho hb
  obtain ⟨m', x', e1, e2, e3, e4, e5⟩ := Icm.infer_spec hc multiplier ho reevaluate false (by simp) m x ht
    (by rw [hg]; exact hb.represents)
  refine ⟨m', e1, by rw [e2.state]; exact e2.labeling, ?_, ?_, ?_⟩
  · rw [e2.state, ← hg, ← e3, evaluate_spec _ e2.stores _ e2.labeling, Movemaker.value, e2.energy]
  · rw [e2.state, ht.state, Movemaker.value, Movemaker.value, e2.energy, ht.energy]; exact e4
  · rw [e2.state]; exact e5

/-- C19 (partial): with FACTOR moves ICM terminates, `value()` is what `evaluate` returns for `arg()`, not worse than at
the start, and still no relabelling of a single variable improves it.
Missing: optimality for the relabellings of all variables of one factor, which is false (`C19_violated`). -/
theorem C19_icmFactor_partial (o : InvOperation V) (multiplier : Bool) (ho : multiplier = true ∨ o.Laws) (gm : GM V)
    (p : Problem V) (hb : BuiltModel gm p) (bop : V → V → Bool) (hc : IcmContext o bop) (reevaluate : V → Bool)
    (hrepl : Replaceable o bop reevaluate) (m : Movemaker V) (h : Reachable o multiplier gm p m) :
    ∃ m', Icm.infer o multiplier bop reevaluate true m = some m' ∧
      p.Labeling m'.state ∧ gm.evaluate o.toOperation m'.state = some m'.value ∧
      (m'.state = m.state ∨ bop m'.value m.value = true) ∧
      ∀ v, v < p.numLabels.length → LocallyOptimal o.toOperation bop p [v] m'.state := by
  obtain ⟨x, ht, hg⟩ := h.tracks ho hb
  obtain ⟨m', x', e1, e2, e3, e4, e5⟩ := Icm.infer_spec hc multiplier ho reevaluate true (fun _ => hrepl) m x ht
    (by rw [hg]; exact hb.represents)
  refine ⟨m', e1, by rw [e2.state]; exact e2.labeling, ?_, ?_, ?_⟩
  · rw [e2.state, ← hg, ← e3, evaluate_spec _ e2.stores _ e2.labeling, Movemaker.value, e2.energy]
  · rw [e2.state, ht.state, Movemaker.value, Movemaker.value, e2.energy, ht.energy]; exact e4
  · rw [e2.state]; exact e5

/-! ### Concrete contexts -/

/-- Minimizer with Adder on integers. -/
theorem minAdd_icm : IcmContext intAddSub (fun a b => decide (a < b)) where
  comm := intAdd_comm
  order := minAdd_context.order
  reflects := minAdd_context.reflects
  preserves := by intro r a b; simp [intAddSub, intAdd]

/-- The hypotheses are met by a built model with 2, 3, 2 labels (`demoOps`) and a start labeling. -/
example : ∃ gm m, BuiltModel gm (builtAfter demoOps).problem ∧ Icm.construct intAddSub gm [1, 2, 0] = some m ∧
    Reachable intAddSub false gm (builtAfter demoOps).problem m ∧
    IcmContext intAddSub (fun a b => decide (a < b)) ∧ Replaceable intAddSub (fun a b => decide (a < b)) (fun _ => false) := by
  obtain ⟨gm, hb⟩ := builtModel_exists demoOps_valid
  have hnl : (builtAfter demoOps).problem.numLabels = [2, 3, 2] := by decide
  have hy : (builtAfter demoOps).problem.Labeling [1, 2, 0] := by
    constructor
    · rw [hnl]; rfl
    · rw [hnl]
      intro i l n h1 h2
      match i with
      | 0 => simp at h1 h2; omega
      | 1 => simp at h1 h2; omega
      | 2 => simp at h1 h2; omega
      | i + 3 => simp at h1
  obtain ⟨m, e, _, hr⟩ := (C18_construct intAddSub false gm _ hb (by rw [hnl]; decide)).1 [1, 2, 0] hy
  exact ⟨gm, m, hb, e, hr, minAdd_icm, minAdd_context.replace⟩

/-! ### Violations -/

/-- Two binary variables with one unary factor each: (1, 2) and (0, 1). -/
def c18Ops : List (BuildOp Nat) :=
  [.addVariable 2, .addVariable 2,
   .addFunction 0 ⟨[2], fun c => match c with | [a] => a + 1 | _ => 0⟩, .addFactor 0 [0],
   .addFunction 0 ⟨[2], fun c => match c with | [a] => a | _ => 0⟩, .addFactor 1 [1]]

theorem c18Ops_valid : ValidHistory 1 Built.empty c18Ops := by
  simp [c18Ops, ValidHistory, BuildOp.Valid, BuildOp.apply, Built.empty, restrict]

/-- C18 is violated for Multiplier and Maximizer on nonnegative values: the run that starts in (0,0) (value 0) ends in (0,1) with
value 1 although relabelling variable 0 gives (1,1) with value 2. -/
theorem C18_violated : ∃ (gm : GM Nat) (m0 m1 : Movemaker Nat), BuiltModel gm (builtAfter c18Ops).problem ∧
    Icm.construct natMulDiv gm [0, 0] = some m0 ∧
    Icm.infer natMulDiv true (fun a b => decide (b < a)) (fun e => decide (e = 0)) false m0 = some m1 ∧
    m1.state = [0, 1] ∧ m1.value = 1 ∧
    (builtAfter c18Ops).problem.energy natMulDiv.toOperation [1, 1] = 2 := by
  obtain ⟨c, h1⟩ : ∃ c, (Client.init 1).run (fun _ _ => false) c18Ops = .ok () c := ⟨_, rfl⟩
  refine ⟨c.gm, ?_⟩
  cases h1
  have hs : EqvSound (V := Nat) (fun _ _ => false) := by intro f g h; simp at h
  exact ⟨_, _, ⟨1, _, c18Ops, _, hs, c18Ops_valid, rfl, rfl, rfl⟩, rfl, rfl, rfl, rfl, rfl⟩

/-- Four binary variables in a chain with three factors. -/
def c19Ops : List (BuildOp Int) :=
  [.addVariable 2, .addVariable 2, .addVariable 2, .addVariable 2,
   .addFunction 0 ⟨[2, 2], fun c => match c with | [0, 0] => 0 | [1, 1] => 1 | _ => 10⟩, .addFactor 0 [0, 1],
   .addFunction 0 ⟨[2, 2], fun c => match c with | [1, 1] => -5 | _ => 0⟩, .addFactor 1 [1, 2],
   .addFunction 0 ⟨[2, 2], fun c => match c with | [0, 0] => 0 | [1, 1] => -10 | _ => 10⟩, .addFactor 2 [2, 3]]

theorem c19Ops_valid : ValidHistory 1 Built.empty c19Ops := by
  simp [c19Ops, ValidHistory, BuildOp.Valid, BuildOp.apply, Built.empty, restrict]

/-- C19 is violated: the run from (0,0,0,0) ends in (0,0,1,1) with value -10 although relabelling the two variables 0, 1 of the
first factor gives (1,1,1,1) with value -14. -/
theorem C19_violated : ∃ (gm : GM Int) (m0 m1 : Movemaker Int), BuiltModel gm (builtAfter c19Ops).problem ∧
    Icm.construct intAddSub gm [] = some m0 ∧
    Icm.infer intAddSub false (fun a b => decide (a < b)) (fun _ => false) true m0 = some m1 ∧
    m1.state = [0, 0, 1, 1] ∧ m1.value = -10 ∧
    (builtAfter c19Ops).problem.energy intAdd [1, 1, 1, 1] = -14 := by
  obtain ⟨c, h1⟩ : ∃ c, (Client.init 1).run (fun _ _ => false) c19Ops = .ok () c := ⟨_, rfl⟩
  refine ⟨c.gm, ?_⟩
  cases h1
  exact ⟨_, _, ⟨1, _, c19Ops, _, eqvSound_false, c19Ops_valid, rfl, rfl, rfl⟩, rfl, rfl, rfl, rfl, rfl⟩

end OpenGM
