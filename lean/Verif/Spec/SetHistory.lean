/- Specification: a mathematical set of keys under a history of set operations. -/
namespace OpenGM.Spec

/-- Operations of a set of keys. -/
inductive SetOp (K : Type) where
  | insert (x : K)
  | erase (x : K)
  | clear
  | insertRange (xs : List K)

/-- Effect of an operation on a set given as a predicate. -/
def SetOp.apply {K : Type} (s : K → Prop) : SetOp K → (K → Prop)
  | .insert x => fun k => k = x ∨ s k
  | .erase x => fun k => k ≠ x ∧ s k
  | .clear => fun _ => False
  | .insertRange xs => fun k => k ∈ xs ∨ s k

/-- The set after a history, starting with the empty set. -/
def setAfter {K : Type} (ops : List (SetOp K)) : K → Prop := ops.foldl SetOp.apply (fun _ => False)

end OpenGM.Spec
