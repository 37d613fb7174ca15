import Verif.Spec.Energy
/-
Specification: optimising some of the variables of a problem while the others keep their labels.
-/
namespace OpenGM.Spec

/-- The labeling `x` of all variables: the variables `vs` have the labels `y` (in this order), all others those of `labels`. -/
structure PutInto (labels vs y x : List Nat) : Prop where
  sizeX : x.length = labels.length
  sizeY : y.length = vs.length
  chosen : ∀ i v : Nat, vs[i]? = some v → x[v]? = y[i]?
  others : ∀ v : Nat, v ∉ vs → x[v]? = labels[v]?

/-- The terms that have one of the variables. -/
def Problem.touching {V : Type} (p : Problem V) (vs : List Nat) : Problem V := ⟨p.numLabels, p.terms.filter (fun t => t.vars.any (fun v => vs.contains v))⟩

/-- The terms that have none of the variables. -/
def Problem.untouched {V : Type} (p : Problem V) (vs : List Nat) : Problem V := ⟨p.numLabels, p.terms.filter (fun t => !t.vars.any (fun v => vs.contains v))⟩

/-- Calls of a client: a label is set; variables are selected; the selection is given up; the selected variables are optimised, with or without the current labels as start. -/
inductive SubOp where
  | setLabel (v l : Nat)
  | select (vs : List Nat)
  | unselect
  | infer (warmStart : Bool)

/-- What the calls mean: the current labels and the selected variables. -/
structure SubState where
  labels : List Nat
  selected : List Nat

/-- At first all labels are 0 and nothing is selected. -/
def SubState.init (n : Nat) : SubState := ⟨List.replicate n 0, []⟩

def SubOp.apply (s : SubState) : SubOp → SubState
  | .setLabel v l => { s with labels := s.labels.set v l }
  | .select vs => { s with selected := vs }
  | .unselect => { s with selected := [] }
  | .infer _ => s

/-- Preconditions, for `n` variables: labels of existing variables are set; variables are selected when none are selected, in increasing order; a selection is
given up or optimised only if there is one. -/
def SubOp.Valid (n : Nat) (s : SubState) : SubOp → Prop
  | .setLabel v _ => v < n
  | .select vs => s.selected = [] ∧ vs.Pairwise (· < ·) ∧ ∀ v ∈ vs, v < n
  | .unselect => s.selected ≠ []
  | .infer _ => s.selected ≠ []

def ValidSub (n : Nat) : SubState → List SubOp → Prop
  | _, [] => True
  | s, op :: ops => op.Valid n s ∧ ValidSub n (op.apply s) ops

/-- The state after a history. -/
def subAfter (n : Nat) (ops : List SubOp) : SubState := ops.foldl SubOp.apply (SubState.init n)

end OpenGM.Spec
