import Verif.Spec.Energy
/-
Specification: all label tuples below a shape, first coordinate fastest.
-/
namespace OpenGM.Spec

/-- All tuples below `shape`, in the order in which the first coordinate varies fastest. -/
def allTuples : List Nat → List (List Nat)
  | [] => [[]]
  | n :: shape => (allTuples shape).flatMap (fun t => (List.range n).map (fun d => d :: t))

end OpenGM.Spec
