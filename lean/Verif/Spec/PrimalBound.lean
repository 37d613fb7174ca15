import Verif.Spec.Energy
/-
Specification of the bound of fractional labelings: a weight for each label of each variable; the value of a term of one variable is the weighted sum of its
values, the value of a term of two variables is the value of the transportation problem between the weights of its two variables.
-/
namespace OpenGM.Spec.PrimalBound
open OpenGM.Spec
variable {R S : Type} [Zero R] [Add R] [Mul R]

/-- The weighted sum of the values of a term of one variable. -/
def unaryValue (t : Term R) (u : List R) : R := (u.zipIdx.map (fun e => e.1 * t.table [e.2])).foldl (· + ·) 0

/-- The value of term `j`; `solve j a b` is value and solution of the transportation problem of term `j` between the weights `a` and `b`. -/
def termValue (solve : Nat → List R → List R → R × S) (us : List (List R)) (j : Nat) (t : Term R) : R :=
  match t.vars with
  | [v] => unaryValue t (us.getD v [])
  | [v, w] => (solve j (us.getD v []) (us.getD w [])).1
  | _ => 0

/-- The value of all terms. -/
def totalValue (solve : Nat → List R → List R → R × S) (p : Problem R) (us : List (List R)) : R :=
  (p.terms.zipIdx.map (fun e => termValue solve us e.2 e.1)).foldl (· + ·) 0

/-- What a user of the bound can do. -/
inductive Call (R : Type) where
  | setVariable (v : Nat) (values : List R)
  | getVariable (v : Nat)
  | getVariableValue (v : Nat)
  | getFactorValue (j : Nat)
  | getTotalValue
  | getFactorVariable (j : Nat)

/-- What the user gets. -/
inductive Answer (R S : Type) where
  | nothing
  | weights (u : List R)
  | value (r : R)
  | solution (s : S)

/-- The weights after a call. -/
def after (p : Problem R) (us : List (List R)) : Call R → List (List R)
  | .setVariable v values => us.set v (values.take (p.numLabels.getD v 0))
  | _ => us

/-- The calls allowed: variables and factors exist, there are enough values, factor values are for factors of two variables, and total values for models with
factors of one and two variables only. -/
def Allowed (p : Problem R) : Call R → Prop
  | .setVariable v values => ∃ n, p.numLabels[v]? = some n ∧ n ≤ values.length
  | .getVariable v => v < p.numLabels.length
  | .getVariableValue v => v < p.numLabels.length
  | .getFactorValue j => ∃ t, p.terms[j]? = some t ∧ t.vars.length = 2
  | .getTotalValue => ∀ t ∈ p.terms, t.vars.length = 1 ∨ t.vars.length = 2
  | .getFactorVariable j => ∃ t, p.terms[j]? = some t ∧ t.vars.length = 2

/-- The answer expected for the weights `us`. (The answer of `getFactorVariable` is not restricted here.) -/
def Expected (solve : Nat → List R → List R → R × S) (p : Problem R) (us : List (List R)) : Call R → Answer R S → Prop
  | .setVariable _ _, a => a = .nothing
  | .getVariable v, a => a = .weights (us.getD v [])
  | .getVariableValue v, a => (∃ (j : Nat) (t : Term R), p.terms[j]? = some t ∧ t.vars = [v] ∧ a = .value (unaryValue t (us.getD v []))) ∨ ((∀ t ∈ p.terms, t.vars ≠ [v]) ∧ a = .value 0)
  | .getFactorValue j, a => ∃ t, p.terms[j]? = some t ∧ a = .value (termValue solve us j t)
  | .getTotalValue, a => a = .value (totalValue solve p us)
  | .getFactorVariable _, a => ∃ s, a = .solution s

/-- The answers expected for a history of calls. -/
def ExpectedAll (solve : Nat → List R → List R → R × S) (p : Problem R) : List (List R) → List (Call R) → List (Answer R S) → Prop
  | _, [], as => as = []
  | us, c :: cs, as => ∃ a as', as = a :: as' ∧ Expected solve p us c a ∧ ExpectedAll solve p (after p us c) cs as'

/-- No two terms of one variable have the same variable. -/
def OneUnary (p : Problem R) : Prop :=
  ∀ (i j : Nat) (s t : Term R), p.terms[i]? = some s → p.terms[j]? = some t → s.vars.length = 1 → s.vars = t.vars → i = j

end OpenGM.Spec.PrimalBound
