import Verif.Spec.Energy
import Mathlib.Logic.Relation
/-
Specification: the components of a model that are connected by factors with values above a threshold.
-/
namespace OpenGM.Spec

/-- There is a factor of the variables `a` and `b` whose value is above the threshold. -/
def LinkedAbove {V F : Type} [LT F] (p : Problem V) (lambdas : List F) (threshold : F) (a b : Nat) : Prop :=
  ∃ (j : Nat) (t : Term V) (l : F), p.terms[j]? = some t ∧ t.vars = [a, b] ∧ lambdas[j]? = some l ∧ threshold < l

end OpenGM.Spec
