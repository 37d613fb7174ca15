import Verif.Spec.SwendsenWang
import Mathlib.Logic.Function.Iterate
import Mathlib.Combinatorics.SimpleGraph.Acyclic
/-
Specification: the trees that hang on the rest of a graph.
-/
namespace OpenGM.Spec
variable {V : Type}

/-- `par` tells for every variable its parent: itself for a root, the number of variables if it is in no tree. -/
structure HangingTrees (p : Problem V) (par : Nat → Nat) : Prop where
  /-- a variable with a parent is adjacent to it -/
  adjacent : ∀ v, v < p.numLabels.length → par v ≠ p.numLabels.length → par v ≠ v → p.adjacent v (par v) = true
  /-- all edges at a variable with a parent are edges between a child and its parent -/
  edges : ∀ v w, v < p.numLabels.length → par v ≠ p.numLabels.length → par v ≠ v → p.adjacent v w = true → w = par v ∨ par w = v
  /-- following the parents leads from every variable of a tree to a root -/
  leads : ∀ v, v < p.numLabels.length → par v ≠ p.numLabels.length → ∃ k, par^[k] v < p.numLabels.length ∧ par (par^[k] v) = par^[k] v
  /-- a variable without a parent is a root if it has children, and in no tree otherwise -/
  root : ∀ v, v < p.numLabels.length → (par v = v ∨ par v = p.numLabels.length) → (par v = v ↔ ∃ u, u < p.numLabels.length ∧ u ≠ v ∧ par u = v)
  /-- nothing more can be cut off: no variable without a parent is adjacent to exactly one variable without a parent -/
  maximal : ∀ v, v < p.numLabels.length → (par v = v ∨ par v = p.numLabels.length) → ¬ ∃! w, p.adjacent v w = true ∧ (par w = w ∨ par w = p.numLabels.length)

/-- `r` is the root of the tree of `v`. -/
def IsRootOf (par : Nat → Nat) (v r : Nat) : Prop := par r = r ∧ ∃ k, par^[k] v = r

/-- The graph of a model: two different variables are adjacent if some factor has both. -/
def Problem.simpleGraph (p : Problem V) : SimpleGraph Nat where
  Adj v w := p.adjacent v w = true
  symm := ⟨fun v w h => by
    simp only [Problem.adjacent, Bool.and_eq_true, decide_eq_true_eq, List.any_eq_true] at h ⊢
    obtain ⟨h1, t, h2, h3, h4⟩ := h
    exact ⟨h1.symm, t, h2, h4, h3⟩⟩
  loopless := ⟨fun v h => by simp [Problem.adjacent] at h⟩

end OpenGM.Spec
