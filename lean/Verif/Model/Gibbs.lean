import Verif.Model.Movemaker
/-
Model of include/opengm/inference/gibbs.hxx: class Gibbs, with the integers of RandomUniform (utilities/random.hxx).

Random numbers are arguments: `draw iteration` has the two results of `rand()` and the answer of the test of the random number against the probability that is computed from the new and the old value (lines 313-317, with temperature 361-365). `none` is
undefined behaviour. `neutral` is the neutral element of the accumulation (infinity for Minimizer).
-/
namespace OpenGM.Gibbs
open Spec (InvOperation)
variable {V : Type}

/-- gibbs.hxx 99: `VariableProposal` -/
inductive Proposal
  | random
  | cyclic
  deriving DecidableEq

/-- gibbs.hxx 101-135: Parameter, without the temperature. -/
structure Parameter where
  maxNumberOfSamplingSteps : Nat
  numberOfBurnInSteps : Nat
  variableProposal : Proposal
  startPoint : List Nat

/-- gibbs.hxx 168-173: data members. (`inInference_` is true only during infer.) -/
structure Obj (V : Type) where
  parameter : Parameter
  gm : GM V
  movemaker : Movemaker V
  currentBestState : List Nat
  currentBestValue : V

/-- gibbs.hxx 176-201: constructor; the exception leaves no object. -/
def construct (o : InvOperation V) (neutral : V) (gm : GM V) (parameter : Parameter) : Outcome Unit (Obj V) :=
  match Movemaker.ofModel o gm with
  | none => .ub
  | some m =>
    if parameter.startPoint.length ≠ 0 then
      if parameter.startPoint.length = gm.numberOfVariables then
        match m.initializeFrom o parameter.startPoint with
        | none => .ub
        | some m => .ok ⟨parameter, gm, m, parameter.startPoint, m.value⟩ ()
      else .throw ()
    else .ok ⟨parameter, gm, m, List.replicate gm.numberOfVariables 0, neutral⟩ ()

/-- gibbs.hxx 203-220 `reset`. (The exception cannot occur for a constructed object.) -/
def reset (o : InvOperation V) (g : Obj V) : Outcome (Obj V) Unit :=
  if g.parameter.startPoint.length ≠ 0 then
    if g.parameter.startPoint.length = g.gm.numberOfVariables then
      match g.movemaker.initializeFrom o g.parameter.startPoint with
      | none => .ub
      | some m => .ok () { g with movemaker := m, currentBestState := g.parameter.startPoint, currentBestValue := m.value }
    else .throw g
  else
    match g.movemaker.reset o with
    | none => .ub
    | some m => .ok () { g with movemaker := m, currentBestState := List.replicate g.currentBestState.length 0 }

/-- gibbs.hxx 222-240 `setStartingPoint`. -/
def setStartingPoint (o : InvOperation V) (g : Obj V) (it : List Nat) : Option (Obj V) :=
  match g.movemaker.initializeFrom o it with
  | none => none
  | some m =>
    if g.gm.numberOfVariables ≤ m.state.length ∧ g.gm.numberOfVariables = g.currentBestState.length then
      some { g with movemaker := m, currentBestState := m.state.take g.gm.numberOfVariables, currentBestValue := m.value }
    else none

/-- The random numbers of one pass through the loop. -/
structure Draw (V : Type) where
  variable_ : Nat
  label : Nat
  accept : V → V → Bool

/-- random.hxx 83-93: `rand() % high`, for `low = 0`; a remainder is never equal to `high`. Division by zero is undefined. -/
def uniform (r high : Nat) : Option Nat := if high = 0 then none else some (r % high)

/-- gibbs.hxx 277-285: the variable. For CYCLIC the index was set to 0 in line 278, so that it is always 1, or 0 if there is only one variable. Without variables `numberOfVariables() - 1` wraps around. -/
def selectVariable (gm : GM V) (proposal : Proposal) (r : Nat) : Option Nat :=
  match proposal with
  | .random => uniform r gm.numberOfVariables
  | .cyclic => if gm.numberOfVariables = 0 then some 1 else if 0 < gm.numberOfVariables - 1 then some 1 else some 0

/-- gibbs.hxx 293-325: the move; the result has whether the label was another one. -/
def step (o : InvOperation V) (multiplier : Bool) (bop : V → V → Bool) [DecidableEq V] (d : Draw V) (g : Obj V) : Option (Obj V × Bool) :=
  match selectVariable g.gm g.parameter.variableProposal d.variable_ with
  | none => none
  | some variableIndex =>
    match g.gm.numLabels[variableIndex]? with
    | none => none
    | some n =>
      match uniform d.label n, g.movemaker.state[variableIndex]? with
      | some label, some current =>
        if label ≠ current then
          let oldValue := g.movemaker.value
          match g.movemaker.valueAfterMove o multiplier [variableIndex] [label] with
          | none => none
          | some (newValue, m) =>
            if bop newValue oldValue then
              match m.move o multiplier [variableIndex] [label] with
              | none => none
              | some (_, m) =>
                if bop newValue g.currentBestValue && newValue ≠ g.currentBestValue then
                  if g.currentBestState.length ≤ m.state.length then
                    some ({ g with movemaker := m, currentBestState := m.state.take g.currentBestState.length, currentBestValue := newValue }, true)
                  else none
                else some ({ g with movemaker := m }, true)
            else if d.accept newValue oldValue then
              match m.move o multiplier [variableIndex] [label] with
              | none => none
              | some (_, m) => some ({ g with movemaker := m }, true)
            else some ({ g with movemaker := m }, true)
        else some (g, false)
      | _, _ => none

/-- gibbs.hxx 275-327, 330-378: the loop, from iteration `iteration`; `fuel` bounds the passes. A pass with another label adds two to `iteration`. The result has the Markov states at the calls of the visitor. -/
def loop (o : InvOperation V) (multiplier : Bool) (bop : V → V → Bool) [DecidableEq V] (draw : Nat → Draw V) (total : Nat) : Nat → Nat → Obj V → Option (Obj V × List (List Nat))
  | 0, _, _ => none
  | fuel + 1, iteration, g =>
    if iteration < total then
      match step o multiplier bop (draw iteration) g with
      | none => none
      | some (g, changed) =>
        match loop o multiplier bop draw total fuel (if changed then iteration + 2 else iteration + 1) g with
        | none => none
        | some (g', seen) => some (g', if changed then g.movemaker.state :: seen else seen)
    else some (g, [])

/-- gibbs.hxx 263-383 `infer`. -/
def infer (o : InvOperation V) (multiplier : Bool) (bop : V → V → Bool) [DecidableEq V] (draw : Nat → Draw V) (g : Obj V) : Option (Obj V × List (List Nat)) :=
  let total := g.parameter.maxNumberOfSamplingSteps + g.parameter.numberOfBurnInSteps
  loop o multiplier bop draw total (total + 1) 0 g

/-- gibbs.hxx 385-406 `arg`, outside of infer. -/
def arg (g : Obj V) : Option (List Nat) := if g.gm.numberOfVariables ≤ g.currentBestState.length then some (g.currentBestState.take g.gm.numberOfVariables) else none

end OpenGM.Gibbs
