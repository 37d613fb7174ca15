/-
Specification: the number of variables on which two labelings differ, and orders that compare like numbers.
-/
namespace OpenGM.Spec

/-- The number of variables with different labels in `x` and `z` (Hamming distance). -/
def distance (x z : List Nat) : Nat := (List.range x.length).countP (fun v : Nat => decide (z[v]? ≠ x[v]?))

/-- If `a` is better than `c`, then every `b` is worse than `a` or better than `c`, as for numbers. -/
def Comparable {V : Type} (better : V → V → Bool) : Prop := ∀ a b c, better a c = true → better a b = true ∨ better b c = true

end OpenGM.Spec
