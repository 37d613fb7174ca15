/-
Specification: a labeling of n elements describes the partition into classes of equal label.
-/
namespace OpenGM.Spec

/-- Two labelings of the same number of elements describe the same partition. -/
def SamePartition (l l' : List Nat) : Prop :=
  l.length = l'.length ∧ ∀ i j : Nat, i < l.length → j < l.length → (l[i]? = l[j]? ↔ l'[i]? = l'[j]?)

end OpenGM.Spec
