import Verif.Spec.PartitionProblem
import Mathlib.Data.Rat.Defs
import Mathlib.Algebra.Order.Ring.Rat
/-
Specification of the multicut problem: edges with weights, a weight is paid if the labels of the two ends differ.
-/
namespace OpenGM.Spec.Multicut

/-- The sum of the weights of the edges whose ends have different labels. -/
def cutWeight (es : List (Nat × Nat × ℚ)) (z : List Nat) : ℚ := (es.map (fun e => if z.getD e.1 0 = z.getD e.2.1 0 then 0 else e.2.2)).sum

/-- A solver for multicut problems that is always right: for `m` nodes it gives `m` labels less than `m` with the least cut weight. -/
structure Exact (solver : Nat → List (Nat × Nat × ℚ) → List Nat) : Prop where
  length : ∀ m es, (solver m es).length = m
  small : ∀ m es, ∀ l ∈ solver m es, l < m
  best : ∀ m es z, z.length = m → (∀ l ∈ z, l < m) → cutWeight es (solver m es) ≤ cutWeight es z

/-- What different labels cost more than equal ones. -/
def weight (t : Term ℚ) : ℚ := t.table [0, 1] - t.table [0, 0]

/-- The sum of the weights of all terms with the same variables. -/
def totalWeight (p : Problem ℚ) (vars : List Nat) : ℚ := ((p.terms.filter (fun t => decide (t.vars = vars))).map weight).sum

end OpenGM.Spec.Multicut
