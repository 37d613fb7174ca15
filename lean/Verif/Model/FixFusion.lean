import Mathlib.Data.List.Sort
import Verif.Model.HigherOrderEnergy
import Verif.Model.AlphaExpansion
import Verif.Model.FusionMover
/-
Model of the algorithms that reduce factors of any order to a quadratic function: include/opengm/inference/hqpbo.hxx (class HQPBO), include/opengm/inference/alphaexpansionfusion.hxx (class
AlphaExpansionFusion) and FusionMover::fuseFixQpbo in include/opengm/inference/auxiliary/fusion_move/fusion_mover.hxx.

The three contain the same code for a factor of order two or more; it is modelled once, with the labels that a set and an unset bit stand for as an argument.
The operation of the graphical model is the sum. `none` is an access out of range. QPBO (an external library) is an argument: it gets the terms and answers the label of each node (0, 1, or
something else if it has none). The visitor always continues.
-/
namespace OpenGM.FixFusion
open Hoe (HOE QuadraticRep)
open Spec (sumOp)
variable {V : Type} [CommRing V] [LinearOrder V]

/-- hqpbo.hxx 136, alphaexpansionfusion.hxx 345: `!(assignment & ~subset)`. -/
def subsetOf (size assignment subset : Nat) : Bool := (List.range size).all (fun i => !(assignment.testBit i && !subset.testBit i))

/-- hqpbo.hxx 142-146, alphaexpansionfusion.hxx 350-353 -/
def parity (size assignment subset : Nat) : Bool := (List.range size).foldl (fun p b => xor p (xor (assignment.testBit b) (subset.testBit b))) false

/-- hqpbo.hxx 134-149, alphaexpansionfusion.hxx 343-356: the coefficients after one assignment (the entry for the empty subset is not used). -/
def addEnergy (size assignment : Nat) (energy : V) (coeffs : List V) : List V :=
  coeffs.mapIdx (fun subset c =>
    if subset = 0 then c
    else if subsetOf size assignment subset then c + (if parity size assignment subset then -energy else energy)
    else c)

/-- hqpbo.hxx 122-132, alphaexpansionfusion.hxx 333-341: the labels from position `i`, `k` left; `lab b v` is the label that the bit `b` stands for at the variable `v`. -/
def cliqueLabels (gm : GM V) (f : FactorRec) (lab : Bool → Nat → Option Nat) (assignment : Nat) : Nat → Nat → Option (List Nat)
  | _, 0 => some []
  | i, k + 1 =>
    match gm.visAt f i with
    | none => none
    | some v =>
      match lab (assignment.testBit i) v, cliqueLabels gm f lab assignment (i + 1) k with
      | some l, some ls => some (l :: ls)
      | _, _ => none

/-- hqpbo.hxx 120-150, alphaexpansionfusion.hxx 332-357: the loop over the assignments. -/
def coefficients (gm : GM V) (f : FactorRec) (lab : Bool → Nat → Option Nat) : List Nat → List V → Option (List V)
  | [], coeffs => some coeffs
  | assignment :: as, coeffs =>
    match cliqueLabels gm f lab assignment 0 f.visSize with
    | none => none
    | some ls =>
      match gm.callFactor f ls with
      | none => none
      | some energy => coefficients gm f lab as (addEnergy f.visSize assignment energy coeffs)

/-- hqpbo.hxx 154-161, alphaexpansionfusion.hxx 360-365: the variables of a subset from bit `b`, `k` left. -/
def subsetVars (gm : GM V) (f : FactorRec) (subset : Nat) : Nat → Nat → Option (List Nat)
  | _, 0 => some []
  | b, k + 1 =>
    match gm.visAt f b, subsetVars gm f subset (b + 1) k with
    | some v, some vs => some (if subset.testBit b then v :: vs else vs)
    | _, _ => none

/-- hqpbo.hxx 152-164, alphaexpansionfusion.hxx 359-368: the loop over the subsets. -/
def addSubsets (D : Nat) (gm : GM V) (f : FactorRec) (coeffs : List V) : List Nat → HOE V → Option (HOE V)
  | [], h => some h
  | subset :: ss, h =>
    match coeffs[subset]?, subsetVars gm f subset 0 f.visSize with
    | some c, some vs =>
      match Hoe.addTerm D h c (vs.insertionSort (· ≤ ·)) with
      | none => none
      | some h => addSubsets D gm f coeffs ss h
    | _, _ => none

/-- hqpbo.hxx 107-165, alphaexpansionfusion.hxx 321-369, fusion_mover.hxx 1055-1114: a factor of order two or more. The arrays have `D` = 10 entries for the variables. -/
def addHigher (D : Nat) (gm : GM V) (f : FactorRec) (lab : Bool → Nat → Option Nat) (h : HOE V) : Option (HOE V) :=
  if D < f.visSize then none
  else
    match coefficients gm f lab (List.range (2 ^ f.visSize)) (List.replicate (2 ^ f.visSize) 0) with
    | none => none
    | some coeffs => addSubsets D gm f coeffs (List.range' 1 (2 ^ f.visSize - 1)) h

/-- hqpbo.hxx 100-106, alphaexpansionfusion.hxx 316-320, fusion_mover.hxx 1041-1054: a factor of order one. -/
def addUnary (gm : GM V) (f : FactorRec) (lab : Bool → Nat → Option Nat) (h : HOE V) : Option (HOE V) :=
  match gm.visAt f 0 with
  | none => none
  | some var =>
    match lab false var, lab true var with
    | some l0, some l1 =>
      match gm.callFactor f [l0], gm.callFactor f [l1] with
      | some e0, some e1 => Hoe.addUnaryTerm h var (e1 - e0)
      | _, _ => none
    | _, _ => none

/-- The loop over the factors; `labU` gives the labels for factors of order one, `labH` for the others. Factors without variables are left out. -/
def addFactors (D : Nat) (gm : GM V) (labU labH : Bool → Nat → Option Nat) : List FactorRec → HOE V → Option (HOE V)
  | [], h => some h
  | f :: fs, h =>
    if f.visSize = 0 then addFactors D gm labU labH fs h
    else
      match (if f.visSize = 1 then addUnary gm f labU h else addHigher D gm f labH h) with
      | none => none
      | some h => addFactors D gm labU labH fs h

/-! ### HQPBO -/

/-- hqpbo.hxx 64-68: data members (without `bound_`, which is never read). -/
structure Hqpbo (V : Type) where
  gm : GM V
  constV : V
  hoe : HOE V
  conf : List Nat

/-- hqpbo.hxx 93-98: the sum of the factors without variables. -/
def constants (gm : GM V) : List FactorRec → V → Option V
  | [], c => some c
  | f :: fs, c =>
    if f.visSize = 0 then
      match gm.callFactor f [0] with
      | none => none
      | some e => constants gm fs (c + e)
    else constants gm fs c

/-- The labels 0 and 1 for unset and set bits. -/
def bitLabel (b : Bool) (_ : Nat) : Option Nat := some (if b then 1 else 0)

/-- hqpbo.hxx 81-167: constructor. -/
def Hqpbo.construct (gm : GM V) : Option (Hqpbo V) :=
  match constants gm gm.factors 0, addFactors 10 gm bitLabel bitLabel gm.factors (Hoe.addVars Hoe.construct gm.numberOfVariables).2 with
  | some c, some h => some ⟨gm, c, h, List.replicate gm.numberOfVariables 0⟩
  | _, _ => none

/-- hqpbo.hxx 71-79 `setStartingPoint`. -/
def Hqpbo.setStartingPoint (a : Hqpbo V) (l : List Nat) : Option (Hqpbo V) :=
  if a.gm.numberOfVariables ≤ l.length then some { a with conf := l.take a.gm.numberOfVariables } else none

/-- hqpbo.hxx 200-215: the labels after the move. -/
def readLabels (label : Nat → Int) (conf : List Nat) : List Nat := conf.mapIdx (fun i l => if label i = 0 then 0 else if label i = 1 then 1 else l)

/-- hqpbo.hxx 190-219 `infer`. -/
def Hqpbo.infer (qpbo : QuadraticRep V → Nat → Int) (a : Hqpbo V) : Option (Hqpbo V) :=
  match Hoe.toQuadratic 10 a.hoe QuadraticRep.empty with
  | none => none
  | some (h, q) => some { a with hoe := h, conf := readLabels (qpbo q) a.conf }

/-- hqpbo.hxx 221-238 `arg` for n = 1. -/
def Hqpbo.arg (a : Hqpbo V) : List Nat := a.conf

/-! ### AlphaExpansionFusion -/

/-- alphaexpansionfusion.hxx 96-104: data members. The initial labels, the order of the labels and incrementAlpha are those of AlphaExpansion (alphaexpansionfusion.hxx 519-598 is the same code as alphaexpansion.hxx 424-493). -/
abbrev AEF (V : Type) := AlphaExpansion.AE V

/-- alphaexpansionfusion.hxx 157-208: the constructor (there is no scale: 1). -/
def AEF.construct (gm : GM V) (maxNumberOfSteps : Nat) (ini : AlphaExpansion.Init) (ord : AlphaExpansion.Order) : Outcome (Option (AEF V)) Unit :=
  if gm.factors.any (fun f => decide (10 < f.visSize)) then .throw none
  else
    match AlphaExpansion.initLabel gm [] ini with
    | none => .ub
    | some label =>
      let labelList := AlphaExpansion.initOrder (AlphaExpansion.maxStateOf gm) [] ord
      match labelList[0]? with
      | none => .ub
      | some a => .ok () (some ⟨gm, maxNumberOfSteps, 1, label, labelList, AlphaExpansion.maxStateOf gm, a, 0⟩)

/-- The label alpha for a set bit, the current label for an unset one. -/
def alphaLabel (label : List Nat) (alpha : Nat) (b : Bool) (v : Nat) : Option Nat := if b then some alpha else label[v]?

/-- alphaexpansionfusion.hxx 374-381: the labels after the move, and the number of variables with label 1. -/
def takeAlpha (label : Nat → Int) (alpha : Nat) (labels : List Nat) : List Nat × Nat :=
  (labels.mapIdx (fun i l => if label i = 1 then alpha else l), (List.range labels.length).countP (fun i => decide (label i = 1)))

/-- alphaexpansionfusion.hxx 305-381: one move; the new labels, and the number of changed variables. -/
def expand (qpbo : QuadraticRep V → Nat → Int) (gm : GM V) (label : List Nat) (alpha : Nat) : Option (List Nat × Nat) :=
  match addFactors 10 gm (alphaLabel label alpha) (alphaLabel label alpha) gm.factors (Hoe.addVars Hoe.construct gm.numberOfVariables).2 with
  | none => none
  | some h =>
    match Hoe.toQuadratic 10 h QuadraticRep.empty with
    | none => none
    | some (_, q) => some (takeAlpha (qpbo q) alpha label)

/-- alphaexpansionfusion.hxx 304-398: the loop of `infer`; `steps` iterations are left. The labelings of all steps are collected (the visitor sees them). -/
def loop (qpbo : QuadraticRep V → Nat → Int) : Nat → Nat → AEF V → Option (AEF V × List (List Nat))
  | 0, _, ae => some (ae, [])
  | steps + 1, countUnchanged, ae =>
    if ae.maxState ≤ countUnchanged then some (ae, [])
    else
      match expand qpbo ae.gm ae.label ae.alpha with
      | none => none
      | some (label, changed) =>
        match AlphaExpansion.incrementAlpha { ae with label := label } with
        | none => none
        | some ae' =>
          match loop qpbo steps (if changed > 0 then 0 else countUnchanged + 1) ae' with
          | none => none
          | some (ae'', seen) => some (ae'', label :: seen)

/-- alphaexpansionfusion.hxx 280-401 `infer`. -/
def AEF.infer (qpbo : QuadraticRep V → Nat → Int) (ae : AEF V) : Option (AEF V × List (List Nat)) := loop qpbo ae.maxNumberOfSteps 0 ae

/-! ### fuseFixQpbo -/

/-- fusion_mover.hxx 1077-1084: for factors of order two and more a set bit stands for label 0. -/
def flippedLabel (b : Bool) (_ : Nat) : Option Nat := some (if b then 0 else 1)

/-- fusion_mover.hxx 1026-1119: the quadratic function of the submodel (maxOrder_ = 9, fusion_mover.hxx 379). -/
def fixQpboTerms (subGm : GM V) : Option (QuadraticRep V) :=
  match addFactors 9 subGm bitLabel flippedLabel subGm.factors (Hoe.addVars Hoe.construct subGm.numberOfVariables).2 with
  | none => none
  | some h => (Hoe.toQuadratic 9 h QuadraticRep.empty).map (fun r => r.2)

/-- fusion_mover.hxx 1011-1145 `fuseFixQpbo`. -/
def fuseFixQpbo (bop : V → V → Bool) (solver : QuadraticRep V → Nat → Option Nat) (s : Fusion.Setup V) : Option (V × Fusion.Setup V) :=
  match Fusion.fillSubModel Fusion.native s with
  | none => none
  | some sub =>
    match fixQpboTerms sub with
    | none => none
    | some q =>
      match Fusion.writeBackQpbo s (solver q) 0 s.nLocalVar s.argResult with
      | none => none
      | some res => Fusion.takeBest (sumOp V) bop s res

end OpenGM.FixFusion
