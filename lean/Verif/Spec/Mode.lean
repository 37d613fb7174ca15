import Verif.Spec.Marginals
import Verif.Spec.Moves
/-
Specification for C67: optimal labelings, and values on which the operation keeps a total order.
-/
namespace OpenGM.Spec
variable {V : Type}

/-- `x` is a labeling, and none is better. -/
def Problem.Optimum (o : Operation V) (better : V → V → Bool) (p : Problem V) (x : List Nat) : Prop :=
  p.Labeling x ∧ ∀ y, p.Labeling y → better (p.energy o y) (p.energy o x) = false

/-- `x` is a labeling with `C`, and none with `C` is better. -/
def Problem.Best (o : Operation V) (better : V → V → Bool) (p : Problem V) (C : List Nat → Prop) (x : List Nat) : Prop :=
  p.Labeling x ∧ C x ∧ ∀ y, p.Labeling y → C y → better (p.energy o y) (p.energy o x) = false

/-- A total order, a commutative operation, and values `P` closed under the operation, which keeps their order (sums of numbers, products of positive numbers). -/
structure OrderedValues (o : Operation V) (better : V → V → Bool) (P : V → Prop) : Prop where
  order : StrictOrder better
  total : ∀ a b, better a b = false → better b a = false → a = b
  monoid : o.IsCommMonoid
  value_neutral : P o.neutral
  value_op : ∀ {a b}, P a → P b → P (o.op a b)
  keeps : ∀ {r a b}, P r → P a → P b → better a b = true → better (o.op r a) (o.op r b) = true

/-- A test for "nearly equal" that fits to the order: equal values are close; and a value that is better than `v` and not close to it is better than all values close to `v`. -/
structure Closeness (better close : V → V → Bool) (P : V → Prop) : Prop where
  refl : ∀ a, P a → close a a = true
  convex : ∀ a b v, P a → P b → P v → close a v = true → close b v = false → better b v = true → better b a = true

end OpenGM.Spec
