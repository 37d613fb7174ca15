import Mathlib.Algebra.BigOperators.Group.List.Basic
import Mathlib.Algebra.Ring.Defs
/-
Specification: pseudo-Boolean functions. An assignment gives a Boolean to each variable.
-/
namespace OpenGM.Spec
variable {R : Type} [CommRing R]

/-- The monomial with coefficient `c` and variables `vars`: `c` if all variables are true, else 0. -/
def monomial (x : Nat → Bool) (c : R) (vars : List Nat) : R := if vars.all x then c else 0

/-- The polynomial with the given monomials (coefficient and variables). -/
def polynomial (x : Nat → Bool) (ms : List (R × List Nat)) : R := (ms.map (fun m => monomial x m.1 m.2)).sum

/-- The value of unary terms `(n, E0, E1)` and pairwise terms `(n1, n2, E00, E01, E10, E11)`. -/
def quadraticForm (unary : List (Nat × R × R)) (pairwise : List (Nat × Nat × R × R × R × R)) (x : Nat → Bool) : R :=
  (unary.map (fun t => if x t.1 then t.2.2 else t.2.1)).sum +
    (pairwise.map (fun t => if x t.1 then (if x t.2.1 then t.2.2.2.2.2 else t.2.2.2.2.1) else (if x t.2.1 then t.2.2.2.1 else t.2.2.1))).sum

/-- The constant of the polynomial: the sum of the coefficients of the monomials without variables. -/
def constantPart (ms : List (R × List Nat)) : R := ((ms.filter (fun m => m.2.isEmpty)).map (fun m => m.1)).sum

/-- The assignment `x` with the variables of a partial assignment overwritten. -/
def overwrite (p : Nat → Option Bool) (x : Nat → Bool) : Nat → Bool := fun i => (p i).getD (x i)

/-- The assignments agree on the first `n` variables. -/
def AgreeBelow (n : Nat) (x z : Nat → Bool) : Prop := ∀ i, i < n → z i = x i

/-- A partial assignment is persistent for a quadratic function: overwriting any assignment with it does not increase the value. -/
def PersistentFor [LE R] (unary : List (Nat × R × R)) (pairwise : List (Nat × Nat × R × R × R × R)) (p : Nat → Option Bool) : Prop :=
  ∀ z, quadraticForm unary pairwise (overwrite p z) ≤ quadraticForm unary pairwise z

/-- A labeling with the labels of a partial labeling overwritten. -/
def overwriteLabels (f : Nat → Option Nat) (y : List Nat) : List Nat := y.mapIdx (fun i l => (f i).getD l)

end OpenGM.Spec
