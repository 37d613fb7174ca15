import Verif.Spec.Multicut
/-
Specification for the fusion of two partitions of the variables.
-/
namespace OpenGM.Spec

/-- There is a term of the variables `u` and `v`, and neither partition separates them. -/
def JoinedInBoth {V : Type} (p : Problem V) (a b : List Nat) (u v : Nat) : Prop := ∃ t ∈ p.terms, t.vars = [u, v] ∧ a[u]? = a[v]? ∧ b[u]? = b[v]?

/-- What the partition `y` costs: the sum of the weights of the terms whose variables it separates. -/
def separationCost (p : Problem ℚ) (y : List Nat) : ℚ :=
  (p.terms.map (fun t => if y.getD (t.vars.getD 0 0) 0 = y.getD (t.vars.getD 1 0) 0 then 0 else Multicut.weight t)).sum

end OpenGM.Spec
