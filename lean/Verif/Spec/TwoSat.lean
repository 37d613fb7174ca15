import Verif.Spec.Energy
import Mathlib.Logic.Relation
/-
Specification: satisfiability of a conjunction, and strongly connected components of a directed graph.
-/
namespace OpenGM.Spec

/-- The conjunction of truth values. -/
def conjunction : Operation Bool := ⟨true, (· && ·)⟩

/-- Some labeling makes the conjunction of all terms true. -/
def Problem.Satisfiable (p : Problem Bool) : Prop := ∃ x, p.Labeling x ∧ p.energy conjunction x = true

/-- There is a directed path. -/
def Reaches (edges : List (Nat × Nat)) : Nat → Nat → Prop := Relation.ReflTransGen (fun a b => (a, b) ∈ edges)

/-- `component` numbers the strongly connected components of the graph with the vertices 0, ..., n - 1: equal numbers for vertices that reach each other. -/
def IsStrongComponents (n : Nat) (edges : List (Nat × Nat)) (component : List Nat) : Prop :=
  component.length = n ∧ ∀ u v : Nat, u < n → v < n → (component[u]? = component[v]? ↔ Reaches edges u v ∧ Reaches edges v u)

end OpenGM.Spec
