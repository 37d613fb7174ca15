import Mathlib.Algebra.BigOperators.Group.List.Basic
/-
Specification for C85: the values of the factors of a model at the labels of their variables, as a list.
-/
namespace OpenGM.Spec

/-- `vals` lists, for all positions in order, the results of `get`. -/
def Results {V : Type} (n : Nat) (get : Nat → Option V) (vals : List V) : Prop := vals.length = n ∧ ∀ i, i < n → get i = vals[i]?

end OpenGM.Spec
