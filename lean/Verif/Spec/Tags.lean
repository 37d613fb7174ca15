/-
Specification: tags attached to indices, as a history of operations.
-/
namespace OpenGM.Spec

/-- An operation on an object that attaches tags to indices. -/
inductive TagOp (α : Type)
  | append (number : Nat)
  | tag (index : Nat) (value : α)
  | untag

/-- How many indices there are after a history (latest operation first), from `size` indices. -/
def tagSize {α : Type} (size : Nat) : List (TagOp α) → Nat
  | [] => size
  | .append k :: h => tagSize size h + k
  | _ :: h => tagSize size h

/-- The latest tag given to index `i` since the latest `untag` (latest operation first). -/
def latestTag {α : Type} (i : Nat) : List (TagOp α) → Option α
  | [] => none
  | .untag :: _ => none
  | .tag j x :: h => if j = i then some x else latestTag i h
  | .append _ :: h => latestTag i h

/-- Only existing indices are tagged, and not with the default `d`. -/
def ValidTags {α : Type} (d : α) (size : Nat) : List (TagOp α) → Prop
  | [] => True
  | .tag j x :: h => j < tagSize size h ∧ x ≠ d ∧ ValidTags d size h
  | _ :: h => ValidTags d size h

end OpenGM.Spec
