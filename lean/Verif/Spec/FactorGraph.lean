import Mathlib.Combinatorics.SimpleGraph.Basic
/-
Specification: the bipartite graph of variables (`Sum.inl`) and factors (`Sum.inr`).
-/
namespace OpenGM.Spec

/-- Variable `v` and factor `f` are adjacent iff `v` is one of the variables of `f`. -/
def bipartite (scopes : List (List Nat)) : SimpleGraph (Nat ⊕ Nat) where
  Adj
    | .inl v, .inr f => ∃ s : List Nat, scopes[f]? = some s ∧ v ∈ s
    | .inr f, .inl v => ∃ s : List Nat, scopes[f]? = some s ∧ v ∈ s
    | _, _ => False
  symm := ⟨by rintro (a | a) (b | b) h <;> exact h⟩
  loopless := ⟨by rintro (a | a) h <;> exact h⟩

end OpenGM.Spec
