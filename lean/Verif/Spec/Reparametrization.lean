import Mathlib.Algebra.Ring.Defs
import Verif.Spec.Energy
/-
Specification for C74. The dual variables are `lam j n l`: the term number `j`, the position `n` of one of its variables, and a label `l` of this variable.
-/
namespace OpenGM.Spec
variable {V : Type}

/-- Each variable that appears in a term has exactly one term of its own. -/
def OneUnary (p : Problem V) : Prop := ∀ t ∈ p.terms, ∀ v ∈ t.vars, (p.terms.filter (fun t' => decide (t'.vars = [v]))).length = 1

/-- The number of dual variables: one for each term of at least two variables, variable of it, and label of the variable. -/
def Problem.numDuals (p : Problem V) : Nat := ((p.terms.filter (fun t => decide (2 ≤ t.vars.length))).map (fun t => (restrict p.numLabels t.vars).sum)).sum

/-- The new value of term `j`, of at least two variables: the dual variables of its labels are added. -/
def Term.newValue [CommRing V] (t : Term V) (lam : Nat → Nat → Nat → V) (j : Nat) (c : List Nat) : V := t.table c + (c.zipIdx.map (fun e => lam j e.2 e.1)).sum

/-- The new value of label `l` of variable `v`: the values of its own terms, and the dual variables of the other terms are subtracted. -/
def Problem.newVariableValue [CommRing V] (p : Problem V) (lam : Nat → Nat → Nat → V) (v l : Nat) : V :=
  (p.terms.zipIdx.map (fun e => if e.1.vars = [v] then e.1.table [l] else if v ∈ e.1.vars then - lam e.2 (e.1.vars.idxOf v) l else 0)).sum

end OpenGM.Spec
