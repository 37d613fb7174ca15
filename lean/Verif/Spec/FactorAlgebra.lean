import Verif.Spec.Slices
/-
Specification: a factor as a function of labelings. A labeling is a function from variables to labels; `L v` is the number of labels
of variable `v`.
-/
namespace OpenGM.Spec

/-- `x` gives every variable in `vars` a label in range. -/
def Labels (L : Nat → Nat) (vars : List Nat) (x : Nat → Nat) : Prop := ∀ v ∈ vars, x v < L v

/-- A stored factor with the given variables, shape and access by label sequence has, at each labeling `x`, the value `f x`. (Access by
an iterator looks only at as many entries as the factor has variables: whatever follows does not matter.) -/
structure HasValue {V : Type} (L : Nat → Nat) (vars : List Nat) (shape : List Nat) (read : List Nat → Option V)
    (f : (Nat → Nat) → V) : Prop where
  shape : shape = vars.map L
  value : ∀ x, Labels L vars x → ∀ rest, read (vars.map x ++ rest) = some (f x)

/-- The labeling `x` with the variables `vars` relabelled to `labels`. -/
def override (x : Nat → Nat) : List Nat → List Nat → Nat → Nat
  | v :: vars, l :: labels, w => if w = v then l else override x vars labels w
  | _, _, w => x w

/-- Accumulate the values of `f` over all labels of the variables `vars`, first variable fastest, starting at `neutral`. -/
def marginal {V : Type} (accOp : V → V → V) (neutral : V) (L : Nat → Nat) (vars : List Nat) (f : (Nat → Nat) → V) (x : Nat → Nat) : V :=
  (allTuples (vars.map L)).foldl (fun acc t => accOp (f (override x vars t)) acc) neutral

end OpenGM.Spec
