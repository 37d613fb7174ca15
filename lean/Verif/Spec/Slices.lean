import Verif.Spec.Tuples
/-
Specification: tuples with some fixed entries, tuples restricted to some of the variables, and tuples ordered with the last
coordinate fastest.
-/
namespace OpenGM.Spec

/-- All tuples below `shape`, last coordinate fastest (lexicographic order). -/
def allTuplesLast : List Nat → List (List Nat)
  | [] => [[]]
  | n :: shape => (List.range n).flatMap (fun d => (allTuplesLast shape).map (fun t => d :: t))

/-- `c` has the given values at the given positions. -/
def HasFixed (positions values c : List Nat) : Prop :=
  ∀ i j v : Nat, positions[i]? = some j → values[i]? = some v → c[j]? = some v

/-- The entries of `l` at the positions that are not listed. -/
def dropPositions {α : Type} (positions : List Nat) (l : List α) : List α :=
  (l.zipIdx.filter (fun e => !positions.contains e.2)).map (fun e => e.1)

/-- Tuple `a` over the variables `varsA` is the restriction of the tuple `ab` over the variables `varsAB`. -/
def Restricts (varsAB varsA ab a : List Nat) : Prop :=
  a.length = varsA.length ∧ ∀ j d v : Nat, varsA[j]? = some v → varsAB[d]? = some v → a[j]? = ab[d]?

/-- Strictly increasing. -/
def StrictlySorted (l : List Nat) : Prop := l.Pairwise (· < ·)

end OpenGM.Spec
