import Mathlib.Algebra.Ring.Defs
import Mathlib.Algebra.BigOperators.Group.List.Basic
/-
Specification for C84: the field of experts model. Each expert is a filter, one coefficient for each variable.
-/
namespace OpenGM.Spec
variable {R : Type} [CommRing R]

/-- The response of a filter to labels. -/
def response (filter : List R) (labels : List Nat) : R := (List.zipWith (fun x (l : Nat) => x * (l : R)) filter labels).sum

/-- The sum over the experts of `alpha * log (1 + response² / 2)`. -/
def expertEnergy (half : R) (log : R → R) (filters : List (List R)) (alphas : List R) (labels : List Nat) : R :=
  (List.zipWith (fun filter a => a * log (1 + half * response filter labels ^ 2)) filters alphas).sum

end OpenGM.Spec
