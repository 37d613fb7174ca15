import Verif.Spec.Energy
/-
Specification: fusion of two labelings.
-/
namespace OpenGM.Spec

/-- `x` gives to each variable the label of `A` or of `B`. -/
def Mixture (A B x : List Nat) : Prop := x.length = A.length ∧ ∀ v : Nat, x[v]? = A[v]? ∨ x[v]? = B[v]?

/-- The variables on which `A` and `B` differ, in increasing order. -/
def differing (A B : List Nat) : List Nat := (List.range A.length).filter (fun v => decide (A[v]? ≠ B[v]?))

/-- `x` is the mixture of `A` and `B` that takes the `i`-th of the differing variables from `A` if `y[i] = 0` and from `B` if `y[i] = 1`. -/
structure Fuses (A B y x : List Nat) : Prop where
  length : x.length = A.length
  same : ∀ v : Nat, A[v]? = B[v]? → x[v]? = A[v]?
  zero : ∀ i v : Nat, (differing A B)[i]? = some v → y[i]? = some 0 → x[v]? = A[v]?
  one : ∀ i v : Nat, (differing A B)[i]? = some v → y[i]? = some 1 → x[v]? = B[v]?

/-- The value of unary terms `(i, E0, E1)` and pairwise terms `(i, j, E00, E01, E10, E11)` at the binary labeling `y`. -/
def quadratic {V : Type} (o : Operation V) (unary : List (Nat × V × V)) (pairwise : List (Nat × Nat × V × V × V × V)) (y : List Nat) : V :=
  o.op ((unary.map (fun t => if y[t.1]? = some 0 then t.2.1 else t.2.2)).foldl o.op o.neutral)
    ((pairwise.map (fun t => if y[t.1]? = some 0 then (if y[t.2.1]? = some 0 then t.2.2.1 else t.2.2.2.1)
      else (if y[t.2.1]? = some 0 then t.2.2.2.2.1 else t.2.2.2.2.2))).foldl o.op o.neutral)

end OpenGM.Spec
