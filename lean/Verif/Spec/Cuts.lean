import Mathlib.Algebra.Order.Ring.Defs
import Mathlib.Algebra.BigOperators.Group.List.Basic
import Verif.Spec.Energy
/-
Specification: directed networks with a source (node 0) and a sink (node 1), cuts, and minimum cuts.
Nothing here refers to the model of the C++ code.
-/
namespace OpenGM.Spec

/-- A directed edge with a capacity. -/
structure Edge (V : Type) where
  from_ : Nat
  to_ : Nat
  cap : V
  deriving DecidableEq

/-- A network on the nodes 0, ..., numNodes - 1; node 0 is the source, node 1 the sink. Parallel edges add up. -/
structure Network (V : Type) where
  numNodes : Nat
  edges : List (Edge V)
  deriving DecidableEq

/-- The side of node `v` in the partition `seg` of the nodes: `true` is the side of the sink. -/
def side (seg : List Bool) (v : Nat) : Bool :=
  if v = 0 then false else if v = 1 then true else decide (seg[v]? = some true)

/-- The edge leads from the side of the source to the side of the sink. -/
def Edge.crosses {V : Type} (seg : List Bool) (e : Edge V) : Bool := !side seg e.from_ && side seg e.to_

/-- The capacity of the cut: the sum over the edges from the side of the source to the side of the sink. -/
def Network.cutValue {V : Type} [AddMonoid V] (n : Network V) (seg : List Bool) : V :=
  (n.edges.map (fun e => if e.crosses seg then e.cap else 0)).sum

/-- All capacities are nonnegative and all edges join nodes of the network. -/
def Network.Proper {V : Type} [Zero V] [LE V] (n : Network V) : Prop :=
  ∀ e ∈ n.edges, 0 ≤ e.cap ∧ e.from_ < n.numNodes ∧ e.to_ < n.numNodes

/-- No partition of the nodes has a cut of smaller capacity. -/
def Network.IsMinCut {V : Type} [AddMonoid V] [LE V] (n : Network V) (seg : List Bool) : Prop :=
  seg.length = n.numNodes ∧ ∀ seg' : List Bool, seg'.length = n.numNodes → n.cutValue seg ≤ n.cutValue seg'

/-- A procedure that solves the minimum cut problem on all networks with nonnegative capacities. -/
def ExactSolver {V : Type} [AddMonoid V] [LE V] (s : Network V → List Bool) : Prop :=
  ∀ n : Network V, 2 ≤ n.numNodes → n.Proper → n.IsMinCut (s n)

/-- The partition of the nodes that belongs to a labeling with labels 0 and 1: node `v + 2` is variable `v`. -/
def segOf (x : List Nat) : List Bool := false :: true :: x.map (fun l => decide (l = 1))

/-- Sums. -/
def sumOp (V : Type) [AddMonoid V] : Operation V := ⟨0, (· + ·)⟩

/-- The tables of the terms of order 2 of a problem with two labels per variable satisfy f(0,0) + f(1,1) ≤ f(0,1) + f(1,0). -/
def Problem.Submodular {V : Type} [Add V] [LE V] (p : Problem V) : Prop :=
  ∀ t ∈ p.terms, t.vars.length = 2 → t.table [0, 0] + t.table [1, 1] ≤ t.table [0, 1] + t.table [1, 0]

/-- The same with the inequality reversed. -/
def Problem.Supermodular {V : Type} [Add V] [LE V] (p : Problem V) : Prop :=
  ∀ t ∈ p.terms, t.vars.length = 2 → t.table [0, 1] + t.table [1, 0] ≤ t.table [0, 0] + t.table [1, 1]

/-- A term of order 2 is a Potts term on the labels below `L`: the table has one value on equal labels and another, at least as
large and nonnegative, on different labels. -/
def Term.IsPotts {V : Type} [Zero V] [LE V] (L : Nat) (t : Term V) : Prop :=
  t.vars.length = 2 → ∃ e d : V, e ≤ d ∧ 0 ≤ d ∧ ∀ a b, a < L → b < L → t.table [a, b] = if a = b then e else d

/-- A term of order 2 is a metric on the labels below `L`. -/
def Term.IsMetric {V : Type} [Zero V] [Add V] [LE V] (L : Nat) (t : Term V) : Prop :=
  t.vars.length = 2 → ∀ a b c, a < L → b < L → c < L →
    (t.table [a, b] = 0 ↔ a = b) ∧ 0 ≤ t.table [a, b] ∧ t.table [a, b] = t.table [b, a] ∧
      t.table [a, c] ≤ t.table [a, b] + t.table [b, c]

/-- For all labels below `L`: f(a,a) + f(b,b) ≤ f(a,b) + f(b,a). -/
def Term.SwapSubmodular {V : Type} [Add V] [LE V] (L : Nat) (t : Term V) : Prop :=
  t.vars.length = 2 → ∀ a b, a < L → b < L → t.table [a, a] + t.table [b, b] ≤ t.table [a, b] + t.table [b, a]

/-- The same with the inequality reversed. -/
def Term.SwapSupermodular {V : Type} [Add V] [LE V] (L : Nat) (t : Term V) : Prop :=
  t.vars.length = 2 → ∀ a b, a < L → b < L → t.table [a, b] + t.table [b, a] ≤ t.table [a, a] + t.table [b, b]

/-- `y` arises from `x` by a swap of `a` and `b`: variables with one of these labels get one of them, the others keep theirs. -/
def SwapMove (a b : Nat) (x y : List Nat) : Prop :=
  y.length = x.length ∧ ∀ (v l m : Nat), x[v]? = some l → y[v]? = some m → (if l = a ∨ l = b then m = a ∨ m = b else m = l)

end OpenGM.Spec
