import Verif.Spec.Slices
import Verif.Model.Marray
/-
Specification: the order in which the coordinate tuples of an array are numbered. Only the names of the two coordinate orders are
taken from the model.
-/
namespace OpenGM.Spec
open Marray

/-- All coordinate tuples of an array in the order of their scalar index: for LastMajorOrder the first coordinate is fastest, for
FirstMajorOrder the last one. -/
def scan : Order → List Nat → List (List Nat)
  | .lastMajor, shape => allTuples shape
  | .firstMajor, shape => allTuplesLast shape

/-- Two coordinate tuples, possibly of different length, name the same cell: equal after filling up with zeros. -/
def SameCell (c c' : List Nat) : Prop := ∀ j : Nat, c.getD j 0 = c'.getD j 0

/-- Insert `x` at position `j`. -/
def insertAt (j x : Nat) (c : List Nat) : List Nat := c.take j ++ x :: c.drop j

end OpenGM.Spec
