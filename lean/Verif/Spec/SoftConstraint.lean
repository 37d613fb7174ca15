import Mathlib.Algebra.BigOperators.Group.Finset.Basic
import Mathlib.Algebra.Order.Group.Abs
import Mathlib.Algebra.Ring.Defs
/-
Specification for C79: label costs and the penalty of a linear equality.
-/
namespace OpenGM.Spec

/-- Every label that is used is paid for once. -/
def labelCosts {V : Type} [AddCommMonoid V] (cost : Nat → V) (x : List Nat) : V := ∑ l ∈ x.toFinset, cost l

/-- `|c_0(x_0) + ... + c_{n-1}(x_{n-1}) - b| * lambda`, where `c_i` is given as a list with one number for each label. -/
def equalityPenalty {V : Type} [CommRing V] [LinearOrder V] (c : List (List V)) (b lambda : V) (x : List Nat) : V :=
  |(List.zipWith (fun t l => t.getD l 0) c x).sum - b| * lambda

end OpenGM.Spec
