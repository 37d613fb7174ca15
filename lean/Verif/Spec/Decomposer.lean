import Verif.Spec.Decomposition
import Mathlib.Combinatorics.SimpleGraph.Basic
/-
Specification: what a decomposition puts into its submodels.
-/
namespace OpenGM.Spec

/-- The number of copies of the variable `v` in submodel `m`. -/
def varCopies (varLists : List (List SubVariable)) (m v : Nat) : Nat := (varLists[v]?.getD []).countP (fun s => s.model = m)

/-- The number of copies of the factor `f` in submodel `m`. -/
def facCopies (facLists : List (List SubFactor)) (m f : Nat) : Nat := (facLists[f]?.getD []).countP (fun s => s.model = m)

/-- The factor graph of submodel `m`: its variable `k` and its factor number `j` are adjacent iff the factor depends on the variable. -/
def submodelGraph (facLists : List (List SubFactor)) (m : Nat) : SimpleGraph (Nat ⊕ Nat) where
  Adj
    | .inl k, .inr j => ∃ s ∈ facLists.flatten, s.model = m ∧ s.id = some j ∧ k ∈ s.indices
    | .inr j, .inl k => ∃ s ∈ facLists.flatten, s.model = m ∧ s.id = some j ∧ k ∈ s.indices
    | _, _ => False
  symm := ⟨by rintro (a | a) (b | b) h <;> exact h⟩
  loopless := ⟨by rintro (a | a) h <;> exact h⟩

end OpenGM.Spec
