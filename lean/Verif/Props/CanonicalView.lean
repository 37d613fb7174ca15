import Verif.Lemmas.CanonicalView
import Verif.Props.ExplicitModel
import Verif.Lemmas.DPOrder
/-
C91: the canonical view of a model.
-/
namespace OpenGM
namespace CanonicalView
open Spec Manipulator
variable {V : Type}

/-- C91: let `gm` be a model that was built by valid calls, in which a function type with more than one function is not followed by another type that is used, and
let the value 0 be neutral for the commutative operation of the model (an Adder). Its canonical view can be constructed. It has the same variables; its factors are
one factor for each single variable, in order, followed by one factor for each set of other than one variables on which the model has factors; and each factor has
as value, for every labeling, the values of all factors of the model on exactly these variables combined. Missing for the full claim: operations for which 0 is not
neutral (`C91_violated_multiplier`) and several functions of one type followed by another type (`C91_violated_types`). -/
theorem C91_factors_partial (T : Types) {gm : GM V} {p : Problem V} (hb : BuiltModel gm p) (hT : T.Ok gm)
    (hord : ∀ (i j : Nat) (fs gs : List (Fn V)), gm.functions[i]? = some fs → gm.functions[j]? = some gs → i < j → gs ≠ [] → fs.length ≤ 1)
    {o : Operation V} (ho : o.IsCommMonoid) {zero : V} (hz : zero = o.neutral) :
    ∃ cv scopes, make T o zero gm = some cv ∧ CanonicalScopes p scopes ∧ cv.numLabels = p.numLabels ∧ cv.factors.length = scopes.length ∧
      ∀ (j : Nat) (vs : List Nat), scopes[j]? = some vs → ∃ f, cv.factors[j]? = some f ∧ cv.scope f = vs ∧
        ∀ x, p.Labeling x → cv.callFactor f (restrict x vs ++ [0]) = some (some ((combined o p vs).value x)) := by
  subst hz
  obtain ⟨cv, scopes, h1, h2, h3⟩ := make_spec hb.represents hT hord ho
  refine ⟨cv, scopes, h1, h2, h3.labels, by simpa using h3.factors.length_eq, ?_⟩
  intro j vs hj
  have ht : (scopes.map (fun vs => liftedTerm o p vs))[j]? = some (liftedTerm o p vs) := by rw [List.getElem?_map, hj]; rfl
  obtain ⟨f, g1, g2⟩ := DP.factor_at h3.toStores ht
  refine ⟨f, g1, g2.scope, ?_⟩
  intro x hx
  have hl : cv.numLabels = p.numLabels := h3.labels
  exact callFactor_spec g2 x [0] (by rw [hl]; exact hx.1) (by rw [hl]; exact hx.2) (fun _ => ⟨[], rfl⟩)

/-- C91: under the same conditions, every labeling has the same value in the canonical view as in the model. -/
theorem C91_energy_partial (T : Types) {gm : GM V} {p : Problem V} (hb : BuiltModel gm p) (hT : T.Ok gm)
    (hord : ∀ (i j : Nat) (fs gs : List (Fn V)), gm.functions[i]? = some fs → gm.functions[j]? = some gs → i < j → gs ≠ [] → fs.length ≤ 1)
    {o : Operation V} (ho : o.IsCommMonoid) {zero : V} (hz : zero = o.neutral) :
    ∃ cv, make T o zero gm = some cv ∧ ∀ x, p.Labeling x → cv.evaluate (liftOp o) x = some (some (p.energy o x)) := by
  subst hz
  obtain ⟨cv, scopes, h1, h2, h3⟩ := make_spec hb.represents hT hord ho
  refine ⟨cv, h1, ?_⟩
  intro x hx
  rw [evaluate_spec (liftOp o) h3.toStores x hx, lifted_energy ho h2]
  intro t ht v hv
  have hr := hb.represents
  obtain ⟨j, hj⟩ := List.mem_iff_getElem?.mp ht
  obtain ⟨f, _, g2⟩ := DP.factor_at hr.toStores hj
  have := g2.range v hv
  rwa [hr.labels] at this

/-- C91: under the same conditions, every variable of the canonical view is the only variable of exactly one factor, and no two factors have the same variables. -/
theorem C91_unique_partial (T : Types) {gm : GM V} {p : Problem V} (hb : BuiltModel gm p) (hT : T.Ok gm)
    (hord : ∀ (i j : Nat) (fs gs : List (Fn V)), gm.functions[i]? = some fs → gm.functions[j]? = some gs → i < j → gs ≠ [] → fs.length ≤ 1)
    {o : Operation V} (ho : o.IsCommMonoid) {zero : V} (hz : zero = o.neutral) :
    ∃ cv, make T o zero gm = some cv ∧ (∀ v, v < p.numLabels.length → ∃! j : Nat, ∃ f, cv.factors[j]? = some f ∧ cv.scope f = [v]) ∧
      ∀ (i j : Nat) (f g : FactorRec), cv.factors[i]? = some f → cv.factors[j]? = some g → cv.scope f = cv.scope g → i = j := by
  obtain ⟨cv, scopes, h1, h2, h3, h4, h5⟩ := C91_factors_partial T hb hT hord ho hz
  have key : ∀ (j : Nat) (f : FactorRec), cv.factors[j]? = some f → scopes[j]? = some (cv.scope f) := by
    intro j f hf
    have hj := (List.getElem?_eq_some_iff.mp hf).1
    rw [h4] at hj
    obtain ⟨f', g1, g2, _⟩ := h5 j _ (List.getElem?_eq_getElem hj)
    rw [hf] at g1
    cases g1
    rw [g2, List.getElem?_eq_getElem hj]
  have uniq : ∀ (i j : Nat) (f g : FactorRec), cv.factors[i]? = some f → cv.factors[j]? = some g → cv.scope f = cv.scope g → i = j := by
    intro i j f g hf hg hfg
    have a := key i f hf
    have b := key j g hg
    rw [hfg] at a
    obtain ⟨hi, a⟩ := List.getElem?_eq_some_iff.mp a
    obtain ⟨hj, b⟩ := List.getElem?_eq_some_iff.mp b
    exact (canonicalScopes_nodup h2).getElem_inj_iff.mp (a.trans b.symm)
  refine ⟨cv, h1, ?_, uniq⟩
  intro v hv
  have hs : scopes[v]? = some [v] := by
    obtain ⟨ks, rfl, _⟩ := h2
    rw [List.getElem?_append_left (by simpa using hv), List.getElem?_map, List.getElem?_range hv]
    rfl
  obtain ⟨f, g1, g2, _⟩ := h5 v [v] hs
  refine ⟨v, ⟨f, g1, g2⟩, ?_⟩
  rintro j ⟨g, k1, k2⟩
  exact uniq j v g f k1 g1 (k2.trans g2.symm)

/-! ### concrete cases -/

/-- Two factors on [1], none on [0] and [2], two on [0, 1], one on [0, 2], a constant; one function is shared. -/
def ops : List (BuildOp Int) :=
  [.addVariable 2, .addVariable 3, .addVariable 3, .addFunction 0 ⟨[3], fun c => 5 * (c.headD 0 : Int)⟩,
   .addFunction 0 ⟨[2, 3], fun c => c.foldl (fun a l => 2 * a + (l : Int)) 1⟩, .addFunction 0 ⟨[], fun _ => 7⟩,
   .addFactor 1 [0, 2], .addFactor 0 [1], .addFactor 1 [0, 1], .addFactor 2 [], .addFactor 0 [1], .addFactor 1 [0, 1]]

def T1 : Types := ⟨3, fun _ => 0, 1, 2⟩

theorem ops_built : BuiltModel (ExplicitModel.modelAfter 1 ops) (builtAfter ops).problem := by
  refine ⟨1, fun _ _ => false, ops, _, by intro f g h; simp at h, ?_, rfl, rfl, rfl⟩
  simp [ops, ValidHistory, BuildOp.Valid, BuildOp.apply, Built.empty, restrict]

theorem sum_comm : (⟨0, (· + ·)⟩ : Operation Int).IsCommMonoid := ⟨Int.add_comm, Int.add_assoc, Int.zero_add⟩

example : BuiltModel (ExplicitModel.modelAfter 1 ops) (builtAfter ops).problem ∧ T1.Ok (ExplicitModel.modelAfter 1 ops) ∧
    (∀ (i j : Nat) (fs gs : List (Fn Int)), (ExplicitModel.modelAfter 1 ops).functions[i]? = some fs → (ExplicitModel.modelAfter 1 ops).functions[j]? = some gs → i < j →
      gs ≠ [] → fs.length ≤ 1) ∧ (⟨0, (· + ·)⟩ : Operation Int).IsCommMonoid := by
  refine ⟨ops_built, ⟨by simp [T1], by simp [T1], by simp [T1]⟩, ?_, sum_comm⟩
  intro i j fs gs hi hj hij _
  have hl : (ExplicitModel.modelAfter 1 ops).functions.length = 1 := by decide
  have h2 := (List.getElem?_eq_some_iff.mp hj).1
  omega

/-- The scopes of the canonical view of the example. -/
example : ∃ cv, make T1 ⟨0, (· + ·)⟩ 0 (ExplicitModel.modelAfter 1 ops) = some cv ∧ cv.factors.map cv.scope = [[0], [1], [2], [], [0, 1], [0, 2]] ∧
    cv.evaluate (liftOp ⟨0, (· + ·)⟩) [1, 2, 0] = some (some 49) ∧ (builtAfter ops).problem.energy ⟨0, (· + ·)⟩ [1, 2, 0] = 49 :=
  ⟨_, rfl, by decide +kernel, by decide +kernel, by decide +kernel⟩

/-- C91 is violated: in a model with the Multiplier as operation, a variable without unary factor gets a constant factor with value 0 in the canonical view, so that
every labeling has the value 0 in the view, whatever its value in the model is (here 3). -/
theorem C91_violated_multiplier : ∃ (gm : GM Int) (p : Problem Int) (cv : GM (Option Int)), BuiltModel gm p ∧ make T1 ⟨1, (· * ·)⟩ 0 gm = some cv ∧
    p.Labeling [0, 0] ∧ p.energy ⟨1, (· * ·)⟩ [0, 0] = 3 ∧ cv.evaluate (liftOp ⟨1, (· * ·)⟩) [0, 0] = some (some 0) := by
  refine ⟨ExplicitModel.modelAfter 1 [.addVariable 2, .addVariable 2, .addFunction 0 ⟨[2, 2], fun _ => 3⟩, .addFactor 0 [0, 1]],
    (builtAfter [.addVariable 2, .addVariable 2, .addFunction 0 ⟨[2, 2], fun _ => 3⟩, .addFactor 0 [0, 1]]).problem, _, ?_, rfl, ?_, by decide +kernel, by decide +kernel⟩
  · refine ⟨1, fun _ _ => false, _, _, by intro f g h; simp at h, ?_, rfl, rfl, rfl⟩
    simp [ValidHistory, BuildOp.Valid, BuildOp.apply, Built.empty, restrict]
  · simp [Problem.Labeling, builtAfter, BuildOp.apply, Built.empty, Built.problem]
    intro v l n hv hn
    match v, hv, hn with
    | 0, hv, hn => simp at hv hn; omega
    | 1, hv, hn => simp at hv hn; omega
    | v + 2, hv, _ => simp at hv

/-- C91 is violated: for a model with two functions of its first type and one function of its second type, each used by one factor, the construction of the
canonical view looks function identifiers up in a `std::map` ordered by `operator<`, which is no strict weak order on these identifiers: the behaviour is undefined. -/
theorem C91_violated_types : ∃ gm : GM Int, BuiltModel gm (builtAfter ExplicitModel.mixedOps).problem ∧ gm.functions.map List.length = [2, 1] ∧
    make ⟨4, fun i => i, 2, 3⟩ ⟨0, (· + ·)⟩ 0 gm = none := by
  refine ⟨_, ExplicitModel.mixed_built, by decide, ?_⟩
  have : (make ⟨4, fun i => i, 2, 3⟩ ⟨0, (· + ·)⟩ 0 (ExplicitModel.modelAfter 2 ExplicitModel.mixedOps)).isNone = true := by decide +kernel
  exact Option.isNone_iff_eq_none.mp this

end CanonicalView
end OpenGM
