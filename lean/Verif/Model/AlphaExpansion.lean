import Verif.Model.GraphCut
/-
Model of include/opengm/inference/alphaexpansion.hxx (class AlphaExpansion) with INF = GraphCut<GM, Minimizer, MINSTCUT>. The
operation of the graphical model is the sum, the visitor always continues. `none` is an access out of range.

Values form a linearly ordered commutative ring; `std::numeric_limits<ValueType>::infinity()` is an argument `inf`.
-/
namespace OpenGM
namespace AlphaExpansion
open Spec (Network sumOp)
open GraphCut (FactorView)
variable {V : Type} [CommRing V] [LinearOrder V]

/-- alphaexpansion.hxx 117-123: data members, and the parameters `maxNumberOfSteps_` and `parameter_.scale_`. -/
structure AE (V : Type) where
  gm : GM V
  maxNumberOfSteps : Nat
  scale : V
  label : List Nat
  labelList : List Nat
  maxState : Nat
  alpha : Nat
  counter : Nat

/-- alphaexpansion.hxx 42: `LabelingIntitialType` with the data it uses; for RANDOM_LABEL the sequence of results of `rand()`. -/
inductive Init where
  | default
  | random (rands : List Nat)
  | localOpt
  | explicit (l : List Nat)

/-- alphaexpansion.hxx 43: `OrderType`; for RANDOM_ORDER the permutation that `random_shuffle` makes of 0, 1, ... -/
inductive Order where
  | default
  | random (shuffle : List Nat → List Nat)
  | explicit (l : List Nat)

/-- alphaexpansion.hxx 166-171 -/
def maxStateOf (gm : GM V) : Nat := gm.numLabels.foldl (fun m n => if m < n then n else m) 0

/-- alphaexpansion.hxx 445-459 `setInitialLabel` on a vector `label_` of the right size. -/
def setInitialLabel (gm : GM V) (label l : List Nat) : List Nat :=
  if l.length = label.length then
    if (List.zip l gm.numLabels).any (fun q => decide (q.2 ≤ q.1)) then label else l
  else label

/-- alphaexpansion.hxx 470-475: try the labels `ls` for the factor `f` with index `i`. -/
def localLoop (gm : GM V) (f : FactorRec) (i : Nat) : List Nat → V → List Nat → Option (List Nat)
  | [], _, label => some label
  | s :: ss, value, label =>
    match gm.callFactor f [s] with
    | none => none
    | some v =>
      if v < value then
        match setAt label i s with
        | none => none
        | some label' => localLoop gm f i ss v label'
      else localLoop gm f i ss value label

/-- alphaexpansion.hxx 462-479 `setInitialLabelLocalOptimal`: `i` counts the factors and is used as index of a variable. -/
def setLocalOptimal (gm : GM V) : List FactorRec → Nat → List Nat → Option (List Nat)
  | [], _, label => some label
  | f :: fs, i, label =>
    if f.visSize = 1 then
      match gm.callFactor f [0], gm.numLabels[i]? with
      | some value, some n =>
        match localLoop gm f i (List.range' 1 (n - 1)) value label with
        | none => none
        | some label' => setLocalOptimal gm fs (i + 1) label'
      | _, _ => none
    else setLocalOptimal gm fs (i + 1) label

/-- alphaexpansion.hxx 482-492 `setInitialLabelRandom`: `rand() % numberOfLabels(i)`. -/
def setRandom : List Nat → List Nat → Option (List Nat)
  | [], _ => some []
  | n :: ns, r :: rs =>
    if n = 0 then none
    else
      match setRandom ns rs with
      | none => none
      | some l => some (r % n :: l)
  | _ :: _, [] => none

/-- `vec.resize(n, 0)` -/
def resized (l : List Nat) (n : Nat) : List Nat := l.take n ++ List.replicate (n - l.length) 0

/-- alphaexpansion.hxx 173-185: the initial labels. -/
def initLabel (gm : GM V) (label : List Nat) : Init → Option (List Nat)
  | .default => some (resized label gm.numberOfVariables)
  | .random rands => setRandom gm.numLabels rands
  | .localOpt => setLocalOptimal gm gm.factors 0 (resized label gm.numberOfVariables)
  | .explicit l => some (setInitialLabel gm (resized label gm.numberOfVariables) l)

/-- alphaexpansion.hxx 187-198, 424-442: the order of the labels; an explicit order of the wrong size is ignored. -/
def initOrder (maxState : Nat) (labelList : List Nat) : Order → List Nat
  | .default => List.range maxState
  | .random shuffle => shuffle (List.range maxState)
  | .explicit l => if l.length = maxState then l else labelList

/-- alphaexpansion.hxx 151-203: the constructor. -/
def construct (gm : GM V) (maxNumberOfSteps : Nat) (scale : V) (ini : Init) (ord : Order) : Outcome (Option (AE V)) Unit :=
  if gm.factors.any (fun f => decide (2 < f.visSize)) then .throw none
  else
    match initLabel gm [] ini with
    | none => .ub
    | some label =>
      let labelList := initOrder (maxStateOf gm) [] ord
      match labelList[0]? with
      | none => .ub
      | some a => .ok () (some ⟨gm, maxNumberOfSteps, scale, label, labelList, maxStateOf gm, a, 0⟩)

/-- alphaexpansion.hxx 137-149 `setStartingPoint` -/
def setStartingPoint (ae : AE V) (l : List Nat) : Option (AE V) :=
  if ae.gm.numberOfVariables ≤ l.length then some { ae with label := l.take ae.gm.numberOfVariables } else none

/-- alphaexpansion.hxx 208-219: the labels that `reset` sets (`std::fill` by default). -/
def resetLabel (ae : AE V) : Init → Option (List Nat)
  | .default => some (List.replicate ae.label.length 0)
  | i => initLabel ae.gm ae.label i

/-- alphaexpansion.hxx 207-235 `reset` (the default order is written into the existing list). -/
def reset (ae : AE V) (ini : Init) (ord : Order) : Option (AE V) :=
  match resetLabel ae ini with
  | none => none
  | some label =>
    let labelList := initOrder ae.maxState ae.labelList ord
    match labelList[0]? with
    | none => none
    | some a => some { ae with label := label, labelList := labelList, counter := 0, alpha := a }

/-- alphaexpansion.hxx 238-252 `addUnary`: the factor passed to the binary solver. -/
def unary (var : Nat) (v0 v1 : V) : FactorView V :=
  ⟨[var], fun c => match c with
    | [0] => some v0
    | [1] => some v1
    | _ => none⟩

/-- alphaexpansion.hxx 254-275 `addPairwise` -/
def pairwise (var1 var2 : Nat) (v0 v1 v2 v3 : V) : FactorView V :=
  ⟨[var1, var2], fun c => match c with
    | [0, 0] => some v0
    | [0, 1] => some v1
    | [1, 0] => some v2
    | [1, 1] => some v3
    | _ => none⟩

/-- alphaexpansion.hxx 307-317: the number of factors with two different labels that both differ from alpha. -/
def countAux (gm : GM V) (label : List Nat) (alpha : Nat) : List FactorRec → Option Nat
  | [] => some 0
  | f :: fs =>
    if f.visSize = 2 then
      match gm.visAt f 0, gm.visAt f 1 with
      | some var1, some var2 =>
        match label[var1]?, label[var2]?, countAux gm label alpha fs with
        | some l1, some l2, some n => some (if l1 ≠ l2 ∧ l1 ≠ alpha ∧ l2 ≠ alpha then n + 1 else n)
        | _, _, _ => none
      | _, _ => none
    else countAux gm label alpha fs

/-- alphaexpansion.hxx 322-327: variables that have label alpha already. -/
def alphaUnaries (inf : V) (alpha : Nat) : List Nat → Nat → List (FactorView V)
  | [], _ => []
  | l :: ls, k => if l = alpha then unary k 0 inf :: alphaUnaries inf alpha ls (k + 1) else alphaUnaries inf alpha ls (k + 1)

/-- alphaexpansion.hxx 330-370: the factors that one factor of the model leads to; `varX` is the next auxiliary variable. -/
def expandFactor (gm : GM V) (label : List Nat) (alpha varX : Nat) (f : FactorRec) : Option (List (FactorView V) × Nat) :=
  if f.visSize = 1 then
    match gm.visAt f 0 with
    | none => none
    | some var =>
      match label[var]? with
      | none => none
      | some l =>
        if l ≠ alpha then
          match gm.callFactor f [alpha], gm.callFactor f [l] with
          | some a, some x => some ([unary var a x], varX)
          | _, _ => none
        else some ([], varX)
  else if f.visSize = 2 then
    match gm.visAt f 0, gm.visAt f 1 with
    | some var1, some var2 =>
      match label[var1]?, label[var2]? with
      | some l1, some l2 =>
        if l1 = alpha ∧ l2 = alpha then some ([], varX)
        else if l1 = alpha then
          match gm.callFactor f [alpha, alpha], gm.callFactor f [alpha, l2] with
          | some aa, some ax => some ([unary var2 aa ax], varX)
          | _, _ => none
        else if l2 = alpha then
          match gm.callFactor f [alpha, alpha], gm.callFactor f [l1, alpha] with
          | some aa, some xa => some ([unary var1 aa xa], varX)
          | _, _ => none
        else
          match gm.callFactor f [alpha, alpha], gm.callFactor f [alpha, l2], gm.callFactor f [l1, alpha], gm.callFactor f [l1, l2] with
          | some aa, some ax, some xa, some xx =>
            if l1 = l2 then some ([pairwise var1 var2 aa ax xa xx], varX)
            else some ([pairwise var1 varX 0 ax 0 0, pairwise var2 varX 0 xa 0 0, unary varX aa xx], varX + 1)
          | _, _, _, _ => none
      | _, _ => none
    | _, _ => none
  else some ([], varX)

/-- alphaexpansion.hxx 329-371: all factors. -/
def expandFactors (gm : GM V) (label : List Nat) (alpha : Nat) : List FactorRec → Nat → Option (List (FactorView V))
  | [], _ => some []
  | f :: fs, varX =>
    match expandFactor gm label alpha varX f with
    | none => none
    | some (vs, varX') =>
      match expandFactors gm label alpha fs varX' with
      | none => none
      | some rest => some (vs ++ rest)

/-- alphaexpansion.hxx 376-381: the labels after the move. -/
def applyMove (alpha : Nat) (state : List Nat) : List Nat → Nat → Option (List Nat)
  | [], _ => some []
  | l :: ls, var =>
    match (if l ≠ alpha then (state[var]?).map (fun s => if s = 0 then alpha else l) else some l), applyMove alpha state ls (var + 1) with
    | some l', some ls' => some (l' :: ls')
    | _, _ => none

/-- alphaexpansion.hxx 306-383: one expansion of label alpha; the new labels. -/
def expand (solver : Network V → List Bool → List Bool) (inf scale : V) (gm : GM V) (label : List Nat) (alpha : Nat) :
    Option (List Nat) :=
  match countAux gm label alpha gm.factors with
  | none => none
  | some numberOfAuxiliaryNodes =>
    let start := GraphCut.start (gm.numberOfVariables + numberOfAuxiliaryNodes) 0 scale 0
    if label.countP (fun l => decide (l = alpha)) < gm.numberOfVariables then
      match expandFactors gm label alpha gm.factors gm.numberOfVariables with
      | none => none
      | some vs =>
        match GraphCut.addFactors .minimizer start (alphaUnaries inf alpha label 0 ++ vs) with
        | .ok _ g =>
          match GraphCut.infer solver g with
          | none => none
          | some g' =>
            match GraphCut.arg g' [] 1 with
            | none => none
            | some (_, state) => applyMove alpha state label 0
        | _ => none
    else some label

/-- alphaexpansion.hxx 484-488 `incrementAlpha` -/
def incrementAlpha (ae : AE V) : Option (AE V) :=
  if ae.maxState = 0 then none
  else
    match ae.labelList[(ae.counter + 1) % ae.maxState]? with
    | none => none
    | some a => some { ae with counter := (ae.counter + 1) % ae.maxState, alpha := a }

/-- alphaexpansion.hxx 305-399: the loop of `infer`; `steps` iterations are left. The labelings of all steps are collected
(the visitor sees them). -/
def loop (solver : Network V → List Bool → List Bool) (inf : V) : Nat → Nat → V → AE V → Option (AE V × List (List Nat))
  | 0, _, _, ae => some (ae, [])
  | steps + 1, countUnchanged, energy, ae =>
    if ae.maxState ≤ countUnchanged then some (ae, [])
    else
      match expand solver inf ae.scale ae.gm ae.label ae.alpha with
      | none => none
      | some label =>
        match ae.gm.evaluate (sumOp V) label, incrementAlpha { ae with label := label } with
        | some energy2, some ae' =>
          match (if energy2 < energy then loop solver inf steps 0 energy2 ae' else loop solver inf steps (countUnchanged + 1) energy ae') with
          | none => none
          | some (ae'', seen) => some (ae'', label :: seen)
        | _, _ => none

/-- alphaexpansion.hxx 286-402 `infer` -/
def infer (solver : Network V → List Bool → List Bool) (inf : V) (ae : AE V) : Option (AE V × List (List Nat)) :=
  match ae.gm.evaluate (sumOp V) ae.label with
  | none => none
  | some energy => loop solver inf ae.maxNumberOfSteps 0 energy ae

/-- alphaexpansion.hxx 404-421 `arg` for n = 1 -/
def arg (ae : AE V) : List Nat := ae.label

end AlphaExpansion
end OpenGM
