import Verif.Model.Manipulator
import Verif.Spec.Submodel
/-
Model of include/opengm/inference/auxiliary/submodel/submodel_builder.hxx (class SubmodelOptimizer): the model of some of the variables of a model, all other variables
having their current labels.

Simplifications: the buffers `localFactorViBuffer_`, `fixedVarPosBuffer_` and `notFixedVarPosBuffer_` are lists that grow (they have the length of the largest factor).
`reserveGraphicalModel` (321-452) only reserves memory: not modelled. In the construction of the submodel an exception and undefined behaviour are both `none`. The values of
the submodel are optional, as in Model/Manipulator: its functions are views of the factors of the model. The subsolver is any function of the submodel and of a starting point.
Not modelled: `inferSubmodelInplace`, `mergeFactors`, `mergeFactorsAndInferDp`.
-/
namespace OpenGM
namespace Submodel
open Manipulator (viewFunction viewFixFunction addTerm)
variable {V : Type}

/-- submodel_builder.hxx 667-685: the data members. -/
structure Opt (V : Type) where
  gm : GM V
  localVariables : List Nat
  globalToLocal : List Nat
  space : List Nat
  inSubmodel : List Bool
  nLocalVar : Nat
  handled : List Bool
  labels : List Nat

/-- submodel_builder.hxx 133-152: the constructor. -/
def construct (gm : GM V) : Opt V :=
  { gm := gm, localVariables := List.replicate gm.numberOfVariables 0, globalToLocal := List.replicate gm.numberOfVariables 0, space := List.replicate gm.numberOfVariables 0,
    inSubmodel := List.replicate gm.numberOfVariables false, nLocalVar := 0, handled := List.replicate gm.numberOfFactors false, labels := List.replicate gm.numberOfVariables 0 }

/-- submodel_builder.hxx 168-170 `setLabel`. -/
def Opt.setLabel (s : Opt V) (vi label : Nat) : Outcome (Opt V) Unit :=
  match setAt s.labels vi label with
  | none => .ub
  | some labels => .ok () { s with labels := labels }

/-- submodel_builder.hxx 183-191: the loop of `setVariableIndices`. -/
def selectLoop : List Nat → Nat → Opt V → Outcome (Opt V) Unit
  | [], _, s => .ok () s
  | globalVi :: rest, localVi, s =>
    if globalVi < s.gm.numberOfVariables then
      match setAt s.localVariables localVi globalVi, s.gm.numLabels[globalVi]? with
      | some lv, some n =>
        match setAt s.space localVi n, setAt s.globalToLocal globalVi localVi, s.inSubmodel[globalVi]? with
        | some sp, some gl, some false =>
          selectLoop rest (localVi + 1) { s with localVariables := lv, space := sp, globalToLocal := gl, inSubmodel := s.inSubmodel.set globalVi true }
        | some sp, some gl, some true => .throw { s with localVariables := lv, space := sp, globalToLocal := gl }
        | _, _, _ => .ub
      | _, _ => .ub
    else .throw s

/-- submodel_builder.hxx 174-192 `setVariableIndices`. -/
def Opt.setVariableIndices (s : Opt V) (vis : List Nat) : Outcome (Opt V) Unit :=
  if s.nLocalVar = 0 then selectLoop vis 0 { s with nLocalVar := vis.length } else .throw s

/-- submodel_builder.hxx 198-204: the loop of `unsetVariableIndices` over the local variables. -/
def unselectLoop : List Nat → Opt V → Outcome (Opt V) Unit
  | [], s => .ok () { s with nLocalVar := 0 }
  | localVi :: rest, s =>
    match s.localVariables[localVi]? with
    | none => .ub
    | some globalVi =>
      match s.inSubmodel[globalVi]? with
      | none => .ub
      | some false => .throw s
      | some true => unselectLoop rest { s with inSubmodel := s.inSubmodel.set globalVi false }

/-- submodel_builder.hxx 196-213 `unsetVariableIndices`. -/
def Opt.unsetVariableIndices (s : Opt V) : Outcome (Opt V) Unit :=
  if s.nLocalVar > 0 then unselectLoop (List.range s.nLocalVar) s else .throw s

/-- submodel_builder.hxx 491-503: the positions of a factor that are not in the submodel, and those that are; from position `v`, `k` left. -/
def splitPositions (s : Opt V) (f : FactorRec) : Nat → Nat → List Nat → List Nat → Option (List Nat × List Nat)
  | _, 0, fixedPos, notFixedPos => some (fixedPos, notFixedPos)
  | v, k + 1, fixedPos, notFixedPos =>
    match s.gm.visAt f v with
    | none => none
    | some facVi =>
      match s.inSubmodel[facVi]? with
      | none => none
      | some false => splitPositions s f (v + 1) k (fixedPos ++ [v]) notFixedPos
      | some true => splitPositions s f (v + 1) k fixedPos (notFixedPos ++ [v])

/-- submodel_builder.hxx 480-483, 512-516, 525-529: the local index of the variable at a position. -/
def localIndex (s : Opt V) (f : FactorRec) (pos : Nat) : Option Nat :=
  match s.gm.visAt f pos with
  | none => none
  | some facVi =>
    match s.globalToLocal[facVi]? with
    | none => none
    | some i => if i < s.nLocalVar then some i else none

/-- submodel_builder.hxx 531-535: position and current label of the variable at a position. -/
def fixedLabel (s : Opt V) (f : FactorRec) (pos : Nat) : Option (Nat × Nat) :=
  match s.gm.visAt f pos with
  | none => none
  | some facVi => (s.labels[facVi]?).map (fun l => (pos, l))

/-- submodel_builder.hxx 473-540: a factor is added to the submodel. The function types of the submodel (127): 0 ViewFunction, 1 ViewFixVariablesFunction. -/
def addFactorTo (s : Opt V) (f : FactorRec) (localVi : Nat) (subGm : GM (Option V)) : Option (GM (Option V)) :=
  if f.visSize = 1 then
    match localIndex s f 0 with
    | none => none
    | some viLocal => if viLocal = localVi then addTerm subGm 0 (viewFunction s.gm f) [viLocal] else none
  else
    match splitPositions s f 0 f.visSize [] [] with
    | none => none
    | some (fixedPos, notFixedPos) =>
      if notFixedPos.length > 0 then
        if fixedPos.length = 0 then
          match (List.range f.visSize).mapM (localIndex s f) with
          | none => none
          | some vis => addTerm subGm 0 (viewFunction s.gm f) vis
        else
          match notFixedPos.mapM (localIndex s f), fixedPos.mapM (fixedLabel s f) with
          | some vis, some fixed => addTerm subGm 1 (viewFixFunction s.gm f fixed) vis
          | _, _ => none
      else none

/-- submodel_builder.hxx 467-542: the loop over the factors of a variable. -/
def factorLoop (s : Opt V) (localVi : Nat) : List Nat → List Bool → GM (Option V) → Option (List Bool × GM (Option V))
  | [], handled, subGm => some (handled, subGm)
  | fi :: fis, handled, subGm =>
    match handled[fi]? with
    | none => none
    | some true => factorLoop s localVi fis handled subGm
    | some false =>
      match s.gm.factors[fi]? with
      | none => none
      | some f =>
        match addFactorTo s f localVi subGm with
        | none => none
        | some subGm' => factorLoop s localVi fis (handled.set fi true) subGm'

/-- submodel_builder.hxx 463-543: the loop over the local variables. -/
def variableLoop (s : Opt V) : List Nat → List Bool → GM (Option V) → Option (List Bool × GM (Option V))
  | [], handled, subGm => some (handled, subGm)
  | localVi :: rest, handled, subGm =>
    match s.localVariables[localVi]? with
    | none => none
    | some globalVi =>
      match s.gm.adj[globalVi]? with
      | none => none
      | some fis =>
        match factorLoop s localVi fis handled subGm with
        | none => none
        | some (handled', subGm') => variableLoop s rest handled' subGm'

/-- submodel_builder.hxx 551-555: the marks of the factors of a variable are removed. -/
def cleanFactors : List Nat → List Bool → Option (List Bool)
  | [], handled => some handled
  | fi :: fis, handled =>
    match setAt handled fi false with
    | none => none
    | some handled' => cleanFactors fis handled'

/-- submodel_builder.hxx 547-556: the marks are removed. -/
def cleanLoop (s : Opt V) : List Nat → List Bool → Option (List Bool)
  | [], handled => some handled
  | localVi :: rest, handled =>
    match s.localVariables[localVi]? with
    | none => none
    | some globalVi =>
      match s.gm.adj[globalVi]? with
      | none => none
      | some fis =>
        match cleanFactors fis handled with
        | none => none
        | some handled' => cleanLoop s rest handled'

/-- submodel_builder.hxx 262-264, 455-557: the submodel is created and built (`buildModelOpenGm`). -/
def Opt.build (s : Opt V) : Option (GM (Option V) × Opt V) :=
  match variableLoop s (List.range s.nLocalVar) s.handled (GM.ofSpace 2 (s.space.take s.nLocalVar)) with
  | none => none
  | some (handled, subGm) =>
    match cleanLoop s (List.range s.nLocalVar) handled with
    | none => none
    | some handled' => some (subGm, { s with handled := handled' })

/-- submodel_builder.hxx 266-271: the starting point: the current labels of the local variables. -/
def startingPoint (s : Opt V) : Option (List Nat) :=
  (List.range s.nLocalVar).mapM (fun viLocal => (s.localVariables[viLocal]?).bind (fun vi => s.labels[vi]?))

/-- submodel_builder.hxx 275-281: has a label changed? -/
def compareLoop (s : Opt V) (result : List Nat) : List Nat → Option Bool
  | [] => some false
  | localVi :: rest =>
    match s.localVariables[localVi]?, result[localVi]? with
    | some globalVi, some r =>
      match s.labels[globalVi]? with
      | none => none
      | some l => if r ≠ l then some true else compareLoop s result rest
    | _, _ => none

/-- submodel_builder.hxx 251-282 `inferSubmodel`: the return value and `resultArg`. The subsolver gets the starting point if `warmStart`. -/
def Opt.inferSubmodel (s : Opt V) (solver : GM (Option V) → Option (List Nat) → List Nat) (warmStart : Bool) : Outcome (Opt V) (Bool × List Nat) :=
  if s.nLocalVar = 0 then .throw s
  else
    match s.build with
    | none => .ub
    | some (subGm, s') =>
      match (if warmStart then (startingPoint s').map some else some none) with
      | none => .ub
      | some start =>
        let result := solver subGm start
        match compareLoop s' result (List.range s'.nLocalVar) with
        | none => .ub
        | some changed => .ok (changed, result) s'

/-- submodel_builder.hxx 657-659 `inSubmodel`. -/
def Opt.isInSubmodel (s : Opt V) (vi : Nat) : Option Bool := s.inSubmodel[vi]?

/-- submodel_builder.hxx 661-663 `submodelSize`. -/
def Opt.submodelSize (s : Opt V) : Nat := s.nLocalVar

/-- A call of a client (Spec/Submodel.lean). Not code of the library: it only dispatches. -/
def Opt.call (solver : GM (Option V) → Option (List Nat) → List Nat) (s : Opt V) : Spec.SubOp → Outcome (Opt V) Unit
  | .setLabel v l => s.setLabel v l
  | .select vs => s.setVariableIndices vs
  | .unselect => s.unsetVariableIndices
  | .infer warmStart =>
    match s.inferSubmodel solver warmStart with
    | .ok _ s' => .ok () s'
    | .throw s' => .throw s'
    | .ub => .ub

/-- The calls of a history, one after the other. -/
def Opt.run (solver : GM (Option V) → Option (List Nat) → List Nat) : Opt V → List Spec.SubOp → Outcome (Opt V) Unit
  | s, [] => .ok () s
  | s, op :: ops =>
    match s.call solver op with
    | .ok _ s' => s'.run solver ops
    | .throw s' => .throw s'
    | .ub => .ub

end Submodel
end OpenGM
