import Verif.Spec.Energy
import Mathlib.Logic.Relation
/-
Specification for C81: a greedy run labels one variable after the other.
-/
namespace OpenGM.Spec
variable {V : Type}

/-- Two variables occur in one term. -/
def Adjacent (p : Problem V) (v w : Nat) : Prop := ∃ t ∈ p.terms, v ∈ t.vars ∧ w ∈ t.vars

instance (p : Problem V) (v w : Nat) : Decidable (Adjacent p v w) := by unfold Adjacent; infer_instance

/-- There is a path between the variables. -/
def LinkedTo (p : Problem V) (v w : Nat) : Prop := Relation.ReflTransGen (Adjacent p) v w

/-- The value of label `k` of variable `v`, given the labels `x` of the others, of those terms of `v` all of whose variables satisfy `use`. -/
def partialValue (o : Operation V) (p : Problem V) (use : Nat → Prop) [DecidablePred use] (x : List Nat) (v k : Nat) : V :=
  ((p.terms.filter (fun t => decide (v ∈ t.vars ∧ ∀ w ∈ t.vars, use w))).map (fun t => t.value (x.set v k))).foldl o.op o.neutral

/-- A greedy run that labels the variables `vs` one after the other, after `done`: each gets a label which is best for the terms that `use` allows, given the
labels of the others at this time, and keeps its label if there is none better. `use done v` says which variables may occur in the terms that are considered for `v`. -/
inductive GreedyRun (o : Operation V) (better : V → V → Bool) (p : Problem V) (use : List Nat → Nat → Nat → Prop)
    [∀ d v, DecidablePred (use d v)] : List Nat → List Nat → List Nat → List Nat → Prop
  | nil (done x : List Nat) : GreedyRun o better p use done [] x x
  | cons {done vs x y : List Nat} {v l n : Nat} (hn : p.numLabels[v]? = some n) (hl : l < n)
      (hbest : ∀ k, k < n → better (partialValue o p (use done v) x v k) (partialValue o p (use done v) x v l) = false)
      (hkeep : x[v]? = some l ∨ ∃ l0, x[v]? = some l0 ∧ better (partialValue o p (use done v) x v l) (partialValue o p (use done v) x v l0) = true)
      (h : GreedyRun o better p use (done ++ [v]) vs (x.set v l) y) : GreedyRun o better p use done (v :: vs) x y

/-- The variables whose labels are taken into account according to the documentation: the variable and those that were labelled before. -/
def Fixed (done : List Nat) (v w : Nat) : Prop := w = v ∨ w ∈ done

instance (done : List Nat) (v : Nat) : DecidablePred (Fixed done v) := fun _ => by unfold Fixed; infer_instance

/-- The variables whose labels are taken into account by the code: also those that are adjacent to one that was labelled before. -/
def Seen (p : Problem V) (done : List Nat) (v w : Nat) : Prop := w = v ∨ w ∈ done ∨ ∃ u ∈ done, Adjacent p u w

instance (p : Problem V) (done : List Nat) (v : Nat) : DecidablePred (Seen p done v) := fun _ => by unfold Seen; infer_instance

end OpenGM.Spec
