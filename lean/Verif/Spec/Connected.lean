import Mathlib.Logic.Relation
/-
Specification: variables connected through factors.
-/
namespace OpenGM.Spec

/-- `v` and `w` are joined by a chain of factors in which consecutive factors share variables: the equivalence relation
generated by "some factor contains both". -/
def Linked (scopes : List (List Nat)) : Nat → Nat → Prop :=
  Relation.EqvGen (fun v w => ∃ s ∈ scopes, v ∈ s ∧ w ∈ s)

end OpenGM.Spec
