import Verif.Spec.Decomposition
import Verif.Spec.Cuts
import Mathlib.Algebra.Order.Ring.Defs
/-
Specification: bounds on the values of a problem, and labelings of submodels.
-/
namespace OpenGM.Spec

/-- The labelings `Y` of the submodels give every copy of a variable the label that `x` gives to the variable. -/
def Agrees (varLists : List (List SubVariable)) (x : List Nat) (Y : List (List Nat)) : Prop :=
  ∀ m k v, CopyOf varLists m k v → ∃ (y : List Nat) (l : Nat), Y[m]? = some y ∧ y[k]? = some l ∧ x[v]? = some l

/-- `y` is a labeling for the numbers of labels `row`. -/
def RowLabeling (row y : List Nat) : Prop := y.length = row.length ∧ ∀ k l n : Nat, y[k]? = some l → row[k]? = some n → l < n

end OpenGM.Spec
