/-
Specification for C82: a space is the list of the numbers of labels of its variables.
-/
namespace OpenGM.Spec

/-- The answers `variables`, `labels` and `simple` of a space describe the list `ns`: its length, its entries, and whether all entries are equal. -/
structure Describes (ns : List Nat) (variables : Option Nat) (labels : Nat → Option Nat) : Prop where
  variables : variables = some ns.length
  labels : ∀ v, v < ns.length → labels v = ns[v]?

/-- All entries are equal. -/
def SameNumbers (ns : List Nat) : Prop := ∀ a ∈ ns, ∀ b ∈ ns, a = b

instance (ns : List Nat) : Decidable (SameNumbers ns) := by unfold SameNumbers; infer_instance

/-- Calls that change a list of numbers of labels. -/
inductive SpaceCall where
  | assign (ns : List Nat)
  | add (k : Nat)
  | reserve (n : Nat)

/-- The list after a call. -/
def SpaceCall.apply (ns : List Nat) : SpaceCall → List Nat
  | .assign ms => ms
  | .add k => ns ++ [k]
  | .reserve _ => ns

end OpenGM.Spec
