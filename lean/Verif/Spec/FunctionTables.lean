import Verif.Spec.Tuples
import Verif.Spec.SetPartitions
import Mathlib.Order.Bounds.Basic
import Mathlib.Algebra.Order.Ring.Abs
/-
Specification: mathematical functions on the label tuples below a shape, and what it means to be Potts, a difference function, ...
-/
namespace OpenGM.Spec

/-- The set of values a function takes on the tuples of a shape. -/
def valueSet {V : Type} (shape : List Nat) (g : List Nat → V) : Set V := {v | ∃ c, InShape shape c ∧ g c = v}

/-- All labels of the tuple agree. -/
def AllEqual (c : List Nat) : Prop := ∀ i j : Nat, i < c.length → j < c.length → c[i]? = c[j]?

/-- One value where all labels agree, another one elsewhere. -/
def IsPottsTable {V : Type} (shape : List Nat) (g : List Nat → V) : Prop :=
  ∃ e n : V, ∀ c, InShape shape c → (AllEqual c → g c = e) ∧ (¬ AllEqual c → g c = n)

/-- The value depends only on which of the labels coincide. -/
def IsGeneralizedPottsTable {V : Type} (shape : List Nat) (g : List Nat → V) : Prop :=
  ∀ c c', InShape shape c → InShape shape c' → SamePartition c c' → g c = g c'

/-- A weight times the distance of two labels. -/
def IsAbsoluteDifferenceTable {V : Type} [CommRing V] [LinearOrder V] (n1 n2 : Nat) (g : List Nat → V) : Prop :=
  ∃ w : V, ∀ a b, a < n1 → b < n2 → g [a, b] = w * |(a : V) - (b : V)|

/-- A weight times the square of the distance of two labels. -/
def IsSquaredDifferenceTable {V : Type} [CommRing V] (n1 n2 : Nat) (g : List Nat → V) : Prop :=
  ∃ w : V, ∀ a b, a < n1 → b < n2 → g [a, b] = w * ((a : V) - (b : V)) ^ 2

/-- A weight times the distance, cut off at `t`. -/
def IsTruncatedAbsoluteTable {V : Type} [CommRing V] [LinearOrder V] (n1 n2 : Nat) (g : List Nat → V) : Prop :=
  ∃ w t : V, 0 ≤ w ∧ 0 ≤ t ∧ ∀ a b, a < n1 → b < n2 → g [a, b] = min (w * |(a : V) - (b : V)|) t

/-- A weight times the squared distance, cut off at `t`. -/
def IsTruncatedSquaredTable {V : Type} [CommRing V] [LinearOrder V] (n1 n2 : Nat) (g : List Nat → V) : Prop :=
  ∃ w t : V, 0 ≤ w ∧ 0 ≤ t ∧ ∀ a b, a < n1 → b < n2 → g [a, b] = min (w * ((a : V) - (b : V)) ^ 2) t

/-- Submodular on the lattice of label tuples: componentwise minimum and maximum. -/
def IsSubmodularTable {V : Type} [Add V] [LE V] (shape : List Nat) (g : List Nat → V) : Prop :=
  ∀ c c', InShape shape c → InShape shape c' → g (List.zipWith min c c') + g (List.zipWith max c c') ≤ g c + g c'

/-- Equal, or closer than the tolerance if there is one. -/
def Near {V : Type} [CommRing V] [LinearOrder V] (tol : Option V) (x y : V) : Prop :=
  match tol with
  | none => x = y
  | some t => |x - y| < t

end OpenGM.Spec
