import Verif.Spec.Energy
/-
Specification: fixing some variables of a problem. A fixing is a list with one entry per variable: `some l` if the variable is fixed to
label `l`, `none` if it is free.
-/
namespace OpenGM.Spec

/-- The labeling of all variables for a labeling of the free variables (given in the order of the variables). -/
def fillIn : List (Option Nat) → List Nat → List Nat
  | [], _ => []
  | some l :: fix, x => l :: fillIn fix x
  | none :: fix, l :: x => l :: fillIn fix x
  | none :: _, [] => []

/-- `x` has the fixed labels. -/
def Respects (fix : List (Option Nat)) (x : List Nat) : Prop := ∀ v l : Nat, fix[v]? = some (some l) → x[v]? = some l

/-- Numbers of labels of the free variables. -/
def freeLabels (fix : List (Option Nat)) (numLabels : List Nat) : List Nat :=
  ((fix.zip numLabels).filter (fun e => e.1.isNone)).map Prod.snd

/-- The variable is free. -/
def Free (fix : List (Option Nat)) (v : Nat) : Prop := fix[v]? = some none

/-- The problem without the terms that have a fixed variable. -/
def Problem.dropFixed {V : Type} (p : Problem V) (fix : List (Option Nat)) : Problem V :=
  ⟨p.numLabels, p.terms.filter (fun t => t.vars.all (fun v => fix[v]? == some none))⟩

/-- Two free variables share a term. -/
def FreeNeighbours {V : Type} (p : Problem V) (fix : List (Option Nat)) (v w : Nat) : Prop :=
  Free fix v ∧ Free fix w ∧ ∃ t ∈ p.terms, v ∈ t.vars ∧ w ∈ t.vars

/-- Calls of a client of a manipulator. -/
inductive FixOp where
  | fix (v l : Nat)
  | free (v : Nat)
  | freeAll
  | lock
  | unlock
  | build
  | buildSub

/-- What the calls mean: which variables are fixed; whether manipulation is locked; whether `lock` has ever been called; whether the
modified model, and the submodels, have been built since the last `unlock`. -/
structure Fixing where
  fix : List (Option Nat)
  locked : Bool
  wasLocked : Bool
  built : Bool
  builtSub : Bool

def Fixing.init (n : Nat) : Fixing := ⟨List.replicate n none, false, false, false, false⟩

/-- Calls that fix or free variables have no effect on a locked manipulator. -/
def FixOp.apply (s : Fixing) : FixOp → Fixing
  | .fix v l => if s.locked then s else { s with fix := s.fix.set v (some l) }
  | .free v => if s.locked then s else { s with fix := s.fix.set v none }
  | .freeAll => if s.locked then s else { s with fix := s.fix.map (fun _ => none) }
  | .lock => { s with locked := true, wasLocked := true }
  | .unlock => { s with fix := s.fix.map (fun _ => none), locked := false, built := false, builtSub := false }
  | .build => { s with locked := true, built := true }
  | .buildSub => { s with locked := true, builtSub := true }

/-- Preconditions: existing variables are fixed, to existing labels; models are built after `lock`. -/
def FixOp.Valid (numLabels : List Nat) (s : Fixing) : FixOp → Prop
  | .fix v l => ∃ n, numLabels[v]? = some n ∧ l < n
  | .free v => v < numLabels.length
  | .freeAll => True
  | .lock => True
  | .unlock => True
  | .build => s.wasLocked = true
  | .buildSub => s.wasLocked = true

def ValidFixing (numLabels : List Nat) : Fixing → List FixOp → Prop
  | _, [] => True
  | s, op :: ops => op.Valid numLabels s ∧ ValidFixing numLabels (op.apply s) ops

/-- The state after a history on a problem with `n` variables. -/
def fixingAfter (n : Nat) (ops : List FixOp) : Fixing := ops.foldl FixOp.apply (Fixing.init n)

end OpenGM.Spec
