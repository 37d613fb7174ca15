import Mathlib.Logic.Relation
/-
Specification: histories of a disjoint-set data structure and the equivalence relation they generate.
-/
namespace OpenGM.Spec

/-- Calls on a partition of the elements 0, ..., n-1. -/
inductive PartitionOp where
  | merge (a b : Nat)
  | insert (k : Nat)
  | find (a : Nat)

/-- Number of elements and the pairs merged so far. -/
structure Merged where
  n : Nat
  pairs : List (Nat × Nat)

/-- Elements passed to merge and find exist. -/
def PartitionOp.Valid (s : Merged) : PartitionOp → Prop
  | .merge a b => a < s.n ∧ b < s.n
  | .insert _ => True
  | .find a => a < s.n

def PartitionOp.apply (s : Merged) : PartitionOp → Merged
  | .merge a b => { s with pairs := s.pairs ++ [(a, b)] }
  | .insert k => { s with n := s.n + k }
  | .find _ => s

def ValidPartitionHistory : Merged → List PartitionOp → Prop
  | _, [] => True
  | s, op :: ops => op.Valid s ∧ ValidPartitionHistory (op.apply s) ops

/-- The equivalence relation generated by the merged pairs. -/
def Merged.Equiv (s : Merged) : Nat → Nat → Prop := Relation.EqvGen (fun a b => (a, b) ∈ s.pairs)

end OpenGM.Spec
