import Verif.Spec.Moves
import Verif.Spec.PriorityQueue
import Verif.Spec.FactorGraph
import Mathlib.Combinatorics.SimpleGraph.Acyclic
/-
Specification for C29: what it means that a problem is a forest, that a list of roots fits, and that a value is worse than
everything a problem can produce.
-/
namespace OpenGM.Spec
variable {V : Type}

/-- The variable lists of the terms. -/
def Problem.scopes (p : Problem V) : List (List Nat) := p.terms.map (·.vars)

/-- The bipartite graph of variables and terms has no cycle, and no term has more than two variables. -/
structure Problem.PairwiseForest (p : Problem V) : Prop where
  acyclic : (bipartite p.scopes).IsAcyclic
  order : ∀ t ∈ p.terms, t.vars.length ≤ 2

/-- `worst` is worse than the empty combination, than every value of a term, and this is kept by combination. -/
structure WorseThanAll (o : Operation V) (better : V → V → Bool) (worst : V) (p : Problem V) : Prop where
  unit : better o.neutral worst = true
  op : ∀ a b, better a worst = true → better b worst = true → better (o.op a b) worst = true
  term : ∀ t ∈ p.terms, ∀ c, InShape (restrict p.numLabels t.vars) c → better (t.table c) worst = true

/-- The roots are variables of different trees, and the trees of the first `roots.length` variables all have a root. -/
structure GoodRoots (p : Problem V) (roots : List Nat) : Prop where
  range : ∀ r ∈ roots, r < p.numLabels.length
  apart : roots.Pairwise (fun a b => ¬ (bipartite p.scopes).Reachable (.inl a) (.inl b))
  cover : ∀ v, v < roots.length → v < p.numLabels.length → ∃ r ∈ roots, (bipartite p.scopes).Reachable (.inl r) (.inl v)

theorem goodRoots_nil (p : Problem V) : GoodRoots p [] := ⟨by simp, by simp, by simp⟩

end OpenGM.Spec
