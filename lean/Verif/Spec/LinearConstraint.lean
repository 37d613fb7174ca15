import Verif.Model.LinearConstraint
import Mathlib.Algebra.BigOperators.Group.List.Basic
import Mathlib.Algebra.Order.Group.Abs
/-
Specification for C80: when an indicator variable is on, by how much a linear constraint is violated, and which constraints are violated.
Of the model only the data types are used.
-/
namespace OpenGM.Spec
open LinCon

/-- An indicator variable with pairs `(variable, label)` is on for a labeling `x`: all, at least one, or none of the variables have the given label. -/
def IsOn (v : IV) (x : List Nat) : Prop :=
  match v.op with
  | .and_ => ∀ p ∈ v.pairs, x[p.1]? = some p.2
  | .or_ => ∃ p ∈ v.pairs, x[p.1]? = some p.2
  | .not_ => ∀ p ∈ v.pairs, x[p.1]? ≠ some p.2

instance (v : IV) (x : List Nat) : Decidable (IsOn v x) := by
  unfold IsOn; split <;> infer_instance

variable {V : Type} [CommRing V] [LinearOrder V]

/-- The value of an indicator variable for a labeling. -/
def onValue (x : List Nat) (v : IV) : V := if IsOn v x then 1 else 0

omit [LinearOrder V] in
/-- The left hand side of a constraint when indicator variable `v` has value `y v`. -/
def lhs (c : Con V) (y : IV → V) : V := (List.zipWith (fun v a => a * y v) c.vars c.coeffs).sum

/-- The amount by which `lhs <= b`, `lhs = b`, `lhs >= b` is missed. -/
def violation (op : COp) (lhs b : V) : V :=
  match op with
  | .lessEqual => max (lhs - b) 0
  | .equal => |lhs - b|
  | .greaterEqual => max (b - lhs) 0

/-- The constraint holds. -/
def Holds (op : COp) (lhs b : V) : Prop :=
  match op with
  | .lessEqual => lhs ≤ b
  | .equal => lhs = b
  | .greaterEqual => b ≤ lhs

/-- The numbers of the constraints that are missed by more than `tol`, each with the amount, in increasing order. -/
def violated (cs : List (Con V)) (y : IV → V) (tol : V) : List (Nat × V) :=
  cs.zipIdx.filterMap (fun e =>
    if tol < violation e.1.op (lhs e.1 y) e.1.bound then some (e.2, violation e.1.op (lhs e.1 y) e.1.bound) else none)

/-- Values of a relation on a list form a strict weak ordering, which `std::sort` requires. -/
def StrictWeakOn (r : IV → IV → Bool) (l : List IV) : Prop :=
  (∀ a ∈ l, r a a = false) ∧ (∀ a ∈ l, ∀ b ∈ l, ∀ c ∈ l, r a b = true → r b c = true → r a c = true) ∧
    ∀ a ∈ l, ∀ b ∈ l, ∀ c ∈ l, r a b = false → r b a = false → r b c = false → r c b = false → r a c = false ∧ r c a = false

/-- What the standard guarantees about `std::sort` with the comparison `r`: nothing unless the comparison is a strict weak ordering on the elements. -/
structure IsStdSort (r : IV → IV → Bool) (sort : List IV → Option (List IV)) : Prop where
  defined : ∀ l, StrictWeakOn r l → ∃ l', sort l = some l'
  perm : ∀ l l', sort l = some l' → l'.Perm l
  sorted : ∀ l l', StrictWeakOn r l → sort l = some l' → l'.Pairwise (fun a b => r b a = false)

end OpenGM.Spec
