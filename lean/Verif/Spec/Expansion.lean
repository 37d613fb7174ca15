import Verif.Spec.Energy
/-
Specification: expansions of a label.
-/
namespace OpenGM.Spec

/-- `y` arises from `x` by changing some variables to the label `α`. -/
def ExpansionMove (α : Nat) (x y : List Nat) : Prop := y.length = x.length ∧ ∀ v, v < x.length → y[v]? = x[v]? ∨ y[v]? = some α

end OpenGM.Spec
