import Verif.Spec.Energy
import Verif.Spec.Tuples
import Verif.Spec.FactorAlgebra
import Mathlib.Algebra.Order.Field.Basic
import Mathlib.Algebra.BigOperators.Group.Finset.Basic
import Mathlib.Data.Finset.Prod
import Mathlib.Logic.Relation
/-
Specification for Swendsen-Wang sampling: the probability of an edge, the turned on edges, clusters, and their weight.
-/
namespace OpenGM.Spec
variable {V F : Type}

/-- The terms with variable `v` or `w`. -/
def Problem.nearTerms (p : Problem V) (v w : Nat) : List (Term V) := p.terms.filter (fun t => decide (v ∈ t.vars ∨ w ∈ t.vars))

/-- The variables of these terms. -/
def Problem.nearVars (p : Problem V) (v w : Nat) : List Nat := (List.range p.numLabels.length).filter (fun u => (p.nearTerms v w).any (fun t => decide (u ∈ t.vars)))

/-- The value of these terms at the labels `x`. -/
def Problem.nearValue (o : Operation V) (p : Problem V) (v w : Nat) (x : Nat → Nat) : V := (p.nearTerms v w).foldl (fun a t => o.op a (t.table (t.vars.map x))) o.neutral

/-- The sum of the probabilities of these values, over all labels of the variables with the given relation of the labels of `v` and `w`. -/
def Problem.nearSum [Field F] (o : Operation V) (p : Problem V) (convert : V → F) (v w : Nat) (test : Nat → Nat → Bool) : F :=
  ((allTuples ((p.nearVars v w).map (fun u => p.numLabels.getD u 0))).map (fun c =>
    if test (override (fun _ => 0) (p.nearVars v w) c v) (override (fun _ => 0) (p.nearVars v w) c w) then convert (p.nearValue o v w (override (fun _ => 0) (p.nearVars v w) c)) else 0)).sum

/-- Two different variables in a common term. -/
def Problem.adjacent (p : Problem V) (v w : Nat) : Bool := decide (v ≠ w) && p.terms.any (fun t => decide (v ∈ t.vars) && decide (w ∈ t.vars))

/-- The probability of an edge: that the two labels differ, for the terms near to the edge; 0 if the numbers of labels differ. -/
def Problem.edgeProbability [Field F] (o : Operation V) (p : Problem V) (convert : V → F) (v w : Nat) : F :=
  if p.numLabels[v]? = p.numLabels[w]? then p.nearSum o convert v w (fun a b => decide (a ≠ b)) / (p.nearSum o convert v w (fun a b => decide (a = b)) + p.nearSum o convert v w (fun a b => decide (a ≠ b))) else 0

/-- With the random numbers `u`, the edge from `v` to `w` is turned on in the state `x`: the labels are equal and the random number is smaller than the probability of the edge. -/
@[reducible] def Problem.turnedOn [Field F] [LinearOrder F] (o : Operation V) (p : Problem V) (convert : V → F) (x : List Nat) (u : Nat → Nat → F) (v w : Nat) : Prop :=
  v < w ∧ p.adjacent v w = true ∧ x[v]? = x[w]? ∧ u v w < p.edgeProbability o convert v w

/-- The probability that the edges that are on are exactly those of `A`, in the state `x`, if each edge between equal labels is turned on independently with the probability `q`. -/
def Problem.edgeWeight [Field F] (p : Problem V) (q : Nat → Nat → F) (x : List Nat) (A : Nat → Nat → Bool) : F :=
  ∏ e ∈ (Finset.range p.numLabels.length ×ˢ Finset.range p.numLabels.length).filter (fun e => e.1 < e.2 ∧ p.adjacent e.1 e.2 = true ∧ x[e.1]? = x[e.2]?), (if A e.1 e.2 then q e.1 e.2 else 1 - q e.1 e.2)

/-- The product of `1 - q` over all edges from the variables outside of `C` with label `l` to the variables in `C`. -/
def Problem.boundary [Field F] (p : Problem V) (q : Nat → Nat → F) (C : Finset Nat) (x : List Nat) (l : Nat) : F :=
  ∏ v ∈ (Finset.range p.numLabels.length).filter (fun v => v ∉ C ∧ x[v]? = some l), ∏ w ∈ (Finset.range p.numLabels.length).filter (fun w => w ∈ C ∧ p.adjacent v w = true), (1 - q v w)

/-- The ratio of Metropolis and Hastings for the step from the state `x`, with label `old` on the cluster `C`, to the state `z` with label `new` on `C`; `pdf` is the density. -/
def Problem.ratio [Field F] (p : Problem V) (q : Nat → Nat → F) (pdf : List Nat → F) (C : Finset Nat) (x z : List Nat) (old new : Nat) : F :=
  ((if new = old then 1 else p.boundary q C x new) / p.boundary q C x old) * (pdf z / pdf x)

/-- In the state `x` and with the random numbers `u` for the edges, `C` is one of the clusters: a class of the equivalence generated by the edges turned on. All its variables have the label `old`, and `z` is the labeling
with the label `new` on `C` and the labels of `x` elsewhere. -/
structure Problem.ClusterMove [Field F] [LinearOrder F] (o : Operation V) (p : Problem V) (convert : V → F) (u : Nat → Nat → F) (x : List Nat) (C : Finset Nat) (old new : Nat) (z : List Nat) : Prop where
  cluster : ∃ r ∈ C, ∀ v, v ∈ C ↔ v < p.numLabels.length ∧ Relation.EqvGen (p.turnedOn o convert x u) r v
  before : ∀ v ∈ C, x[v]? = some old
  after : ∀ v ∈ C, z[v]? = some new
  outside : ∀ v, v ∉ C → z[v]? = x[v]?
  labeling : p.Labeling z

/-- One pass in the state `x`: some cluster gets some label, always in the burn-in phase, and otherwise if the ratio is at least 1 or at least the random number `acceptance`. The report has the number of variables of the
cluster, whether it was relabelled, whether in the burn-in phase, and the new state. -/
def Problem.Pass [Field F] [LinearOrder F] (o : Operation V) (p : Problem V) (convert : V → F) (burning : Bool) (u : Nat → Nat → F) (acceptance : F) (x : List Nat) (clusterSize : Nat) (accepted burningIn : Bool) (state : List Nat) : Prop :=
  ∃ C old new z, p.ClusterMove o convert u x C old new z ∧ clusterSize = C.card ∧ burningIn = burning ∧
    (accepted = true ↔ burning = true ∨ 1 ≤ p.ratio (p.edgeProbability o convert) (fun y => convert (p.energy o y)) C x z old new ∨ acceptance ≤ p.ratio (p.edgeProbability o convert) (fun y => convert (p.energy o y)) C x z old new) ∧
    state = if accepted then z else x

end OpenGM.Spec
