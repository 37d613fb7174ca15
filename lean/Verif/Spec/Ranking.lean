import Verif.Spec.Moves
/-
Specification: the best labelings of a problem in order, and sets of terms that form a forest.
-/
namespace OpenGM.Spec
variable {V : Type}

/-- The labelings `xs` are different, each is at least as good as those after it, and no other labeling is better than one of them. -/
structure Problem.Ranking (o : Operation V) (better : V → V → Bool) (p : Problem V) (xs : List (List Nat)) : Prop where
  labeling : ∀ x ∈ xs, p.Labeling x
  different : xs.Nodup
  sorted : xs.Pairwise (fun x y => better (p.energy o y) (p.energy o x) = false)
  best : ∀ x ∈ xs, ∀ z, p.Labeling z → z ∉ xs → better (p.energy o z) (p.energy o x) = false

/-- The problem without its constant terms. -/
def Problem.withoutConstants (p : Problem V) : Problem V := { p with terms := p.terms.filter (fun t => decide (t.vars ≠ [])) }

/-- The terms with the numbers `ids`, in this order: each has a variable that no later one has. -/
def Problem.Peelable (p : Problem V) : List Nat → Prop
  | [] => True
  | i :: ids => (∃ (t : Term V) (v : Nat), p.terms[i]? = some t ∧ v ∈ t.vars ∧ ∀ k ∈ ids, ∀ t' : Term V, p.terms[k]? = some t' → v ∉ t'.vars) ∧ p.Peelable ids

/-- The terms of two variables among those with the numbers `ids` have no cycle: they can be ordered such that each has a variable that no later one has. -/
def Problem.ForestOf (p : Problem V) (ids : List Nat) : Prop :=
  ∃ l, (∀ i ∈ ids, ∀ t : Term V, p.terms[i]? = some t → t.vars.length = 2 → i ∈ l) ∧ p.Peelable l ∧ ∀ i ∈ l, ∀ t : Term V, p.terms[i]? = some t → t.vars.length = 2

/-- No two terms have the same two variables. -/
def Problem.NoParallel (p : Problem V) : Prop :=
  ∀ (i j : Nat) (t t' : Term V), p.terms[i]? = some t → p.terms[j]? = some t' → t.vars.length = 2 → t.vars = t'.vars → i = j

/-- The tree factors that a caller may ask for: none (so that A* chooses), if no two terms have the same two variables, or terms of the problem that have no cycle. -/
def Problem.TreesOk (p : Problem V) (ids : List Nat) : Prop := (ids = [] ∧ p.NoParallel) ∨ (ids ≠ [] ∧ (∀ i ∈ ids, i < p.terms.length) ∧ p.ForestOf ids)

/-- The number of labelings. -/
def Problem.numLabelings (p : Problem V) : Nat := p.numLabels.foldl (· * ·) 1

end OpenGM.Spec
