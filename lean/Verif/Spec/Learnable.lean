import Mathlib.Algebra.BigOperators.Group.Finset.Basic
import Mathlib.Algebra.Ring.Defs
/-
Specification: functions that are linear in a vector of weights. Independent of the model.
-/
namespace OpenGM.Spec
variable {V : Type} [CommRing V]

/-- The sum over `i` of weight number `ids[i]` times feature `i`. -/
def combination (w : List V) (ids : List Nat) (feats : List V) : V :=
  ∑ i ∈ Finset.range ids.length, w.getD (ids.getD i 0) 0 * feats.getD i 0

/-- What a user sees of a function with weights at one labeling: its value for every vector of weights (`none` is undefined), the numbers of its
weights, and its derivatives by them. -/
structure Linear (value : List V → Option V) (ids : List Nat) (gradient : Nat → Option V) : Prop where
  /-- The derivatives are defined, and the value is the sum of the derivatives times the weights. -/
  value_eq : ∃ g : List V, g.length = ids.length ∧ (∀ i < ids.length, gradient i = g[i]?) ∧
    ∀ w : List V, (∀ k ∈ ids, k < w.length) → value w = some (combination w ids g)

/-- The derivative by weight number `k`: the sum over all places where the weight is used. -/
def derivative (ids : List Nat) (g : List V) (k : Nat) : V :=
  ∑ i ∈ Finset.range ids.length, if ids.getD i 0 = k then g.getD i 0 else 0

end OpenGM.Spec
