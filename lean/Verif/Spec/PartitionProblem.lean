import Verif.Spec.Energy
import Verif.Spec.FunctionTables
/-
Specification: partition problems. All variables have at least as many labels as there are variables, and apart from constants the objective has a weight for each pair of
variables in a given set that is paid if the two labels differ.
-/
namespace OpenGM.Spec

/-- A constant, or a term of two variables that has one value for equal labels and one value for different labels. -/
def IsPartitionTerm {V : Type} (p : Problem V) (t : Term V) : Prop :=
  t.vars = [] ∨ (t.vars.length = 2 ∧ IsPottsTable (restrict p.numLabels t.vars) t.table)

/-- A partition problem. -/
structure IsPartitionProblem {V : Type} (p : Problem V) : Prop where
  labels : ∀ k ∈ p.numLabels, p.numLabels.length ≤ k
  terms : ∀ t ∈ p.terms, IsPartitionTerm p t

/-- No two terms of two variables have the same variables. -/
def NoParallelTerms {V : Type} (p : Problem V) : Prop := p.terms.Pairwise (fun t t' => t.vars.length = 2 → t.vars ≠ t'.vars)

end OpenGM.Spec
