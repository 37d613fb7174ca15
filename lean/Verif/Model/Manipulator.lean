import Verif.Model.GraphicalModel
import Verif.Model.ViewFix
import Verif.Spec.Fixing
/-
Model of include/opengm/graphicalmodel/graphicalmodel_manipulator.hxx (class GraphicalModelManipulator) without
`lockAndTentacelElimination` (486-861; its start is in Model/Tentacle.lean): the tentacle members stay empty, all entries of `tentacleFactor_` are false.

The functions of the modified models (ViewFunction, ViewFixVariablesFunction) refer to factors of the original model: their values are
computed by calls of these factors, which could be undefined. So values of the modified model are of type `Option V`: `none` is an
undefined call. An exception thrown by `addFactor` of the modified model and undefined behaviour are both modelled as `none`.
-/
namespace OpenGM
open Spec (Operation)
namespace Manipulator
variable {V : Type}

/-- The operator on values that may be undefined. -/
def liftOp (o : Operation V) : Operation (Option V) :=
  ⟨some o.neutral, fun a b => match a, b with
    | some x, some y => some (o.op x y)
    | _, _ => none⟩

/-- graphicalmodel_manipulator.hxx 57-60. -/
inductive Mode where
  | fix
  | drop

/-- A factor of the original model as operand: `numberOfLabels(i) = gm_->numberOfLabels(vis_[i])` (graphicalmodel_factor.hxx 520-527) and
`operator()`. -/
def factorShape (gm : GM V) (f : FactorRec) : Nat → Nat → Option (List Nat)
  | _, 0 => some []
  | i, k + 1 =>
    match gm.visAt f i with
    | none => none
    | some vi =>
      match gm.numLabels[vi]? with
      | none => none
      | some n => (factorShape gm f (i + 1) k).map (fun s => n :: s)

/-- functions/view.hxx 40-90 `ViewFunction`: shape and values of the factor. A factor of order 0 is called with the iterator it gets, which
points to a 0 (contract of `callFn`). -/
def viewFunction (gm : GM V) (f : FactorRec) : Option (Fn (Option V)) :=
  (factorShape gm f 0 f.visSize).map (fun s => ⟨s, fun labels => gm.callFactor f (labels ++ [0])⟩)

/-- functions/view_fix_variables_function.hxx: shape and values of a view with fixed variables (Model/ViewFix). The content of the buffer
before a call is modelled as the initial one (Props/ViewFix shows that it does not matter). -/
def viewFixFunction (gm : GM V) (f : FactorRec) (fixed : List (Nat × Nat)) : Option (Fn (Option V)) :=
  match factorShape gm f 0 f.visSize with
  | none => none
  | some s =>
    let F : FactorOps.Fn V := ⟨s, fun labels => gm.callFactor f labels⟩
    match ViewFix.construct F fixed with
    | none => none
    | some v =>
      match (List.range (ViewFix.dimension v)).mapM (ViewFix.shapeAt v) with
      | none => none
      | some shape => some ⟨shape, fun labels => (ViewFix.call v (ViewFix.initialBuffer F) labels).map Prod.fst⟩

/-- graphicalmodel_manipulator.hxx 100-113: data members. -/
structure Manip (V : Type) where
  gm : GM V
  locked : Bool
  fixVariable : List Bool
  fixVariableLabel : List Nat
  mode : Mode
  validModel : Bool
  mgm : GM (Option V)
  validSubModels : Bool
  submodels : List (GM (Option V))
  var2subProblem : List Nat
  tentacleFactor : List Bool

/-- The number of function types of a modified model (graphicalmodel_manipulator.hxx 63-67): 0 ViewFixVariablesFunction, 1 ViewFunction,
2 ConstantFunction, 3 ExplicitFunction. -/
def nTypes : Nat := 4

/-- graphicalmodel_manipulator.hxx 136-147: constructor. -/
def construct (gm : GM V) (mode : Mode) : Manip V :=
  { gm := gm, locked := false, fixVariable := List.replicate gm.numberOfVariables false,
    fixVariableLabel := List.replicate gm.numberOfVariables 0, mode := mode, validModel := false, mgm := GM.empty nTypes,
    validSubModels := false, submodels := [], var2subProblem := List.replicate gm.numberOfVariables 0, tentacleFactor := [] }

/-- graphicalmodel_manipulator.hxx 210-218 `fixVariable` (without assertions: ignored when locked). -/
def fixVariable (m : Manip V) (var l : Nat) : Option (Manip V) :=
  if m.locked then some m
  else
    match setAt m.fixVariable var true with
    | none => none
    | some fv =>
      match setAt m.fixVariableLabel var l with
      | none => none
      | some fl => some { m with fixVariable := fv, fixVariableLabel := fl }

/-- graphicalmodel_manipulator.hxx 221-228 `freeVariable`. -/
def freeVariable (m : Manip V) (var : Nat) : Option (Manip V) :=
  if m.locked then some m
  else (setAt m.fixVariable var false).map (fun fv => { m with fixVariable := fv })

/-- graphicalmodel_manipulator.hxx 231-240 `freeAllVariables`. -/
def freeAllVariables (m : Manip V) : Manip V :=
  if m.locked then m else { m with fixVariable := m.fixVariable.map (fun _ => false) }

/-- graphicalmodel_manipulator.hxx 184-192 `unlock`. -/
def unlock (m : Manip V) : Manip V :=
  freeAllVariables { m with locked := false, validSubModels := false, validModel := false, submodels := [] }

/-- `vector::resize(n, x)`. -/
def resize {α : Type} (l : List α) (n : Nat) (x : α) : List α := l.take n ++ List.replicate (n - l.length) x

/-- graphicalmodel_manipulator.hxx 195-200 `lock`. -/
def lock (m : Manip V) : Manip V :=
  { m with locked := true, tentacleFactor := resize m.tentacleFactor m.gm.numberOfFactors false }

/-- graphicalmodel_manipulator.hxx 251-259: loop of `modifiedState2OriginalState` from variable `var`, `k` left: labels of the remaining
variables. `ol` has been resized before and every entry is assigned once in order: modelled by constructing the list. -/
def originalLoop (fv : List Bool) (fl : List Nat) (ml : List Nat) : Nat → Nat → Nat → Option (List Nat)
  | _, 0, _ => some []
  | var, k + 1, c =>
    match fv[var]? with
    | none => none
    | some true =>
      match fl[var]? with
      | none => none
      | some l => (originalLoop fv fl ml (var + 1) k c).map (fun t => l :: t)
    | some false =>
      match ml[c]? with
      | none => none
      | some l => (originalLoop fv fl ml (var + 1) k (c + 1)).map (fun t => l :: t)

/-- graphicalmodel_manipulator.hxx 243-268 `modifiedState2OriginalState(ml, ol)`: the content of `ol` afterwards. -/
def modifiedState2OriginalState (m : Manip V) (ml ol : List Nat) : Option (List Nat) :=
  if m.locked && decide (ml.length = m.mgm.numberOfVariables) then
    originalLoop m.fixVariable m.fixVariableLabel ml 0 m.gm.numberOfVariables 0
  else some ol

/-- graphicalmodel_manipulator.hxx 305-312: `varMap[var] = numberOfVariables++` for the free variables. -/
def varMapLoop (fv : List Bool) : Nat → Nat → Nat → List Nat → Option (Nat × List Nat)
  | _, 0, count, varMap => some (count, varMap)
  | var, k + 1, count, varMap =>
    match fv[var]? with
    | none => none
    | some true => varMapLoop fv (var + 1) k count varMap
    | some false =>
      match setAt varMap var count with
      | none => none
      | some varMap' => varMapLoop fv (var + 1) k (count + 1) varMap'

/-- graphicalmodel_manipulator.hxx 315-320: `shape[varMap[var]] = gm_.numberOfLabels(var)`. -/
def shapeLoop (gm : GM V) (fv : List Bool) (varMap : List Nat) : Nat → Nat → List Nat → Option (List Nat)
  | _, 0, shape => some shape
  | var, k + 1, shape =>
    match fv[var]? with
    | none => none
    | some true => shapeLoop gm fv varMap (var + 1) k shape
    | some false =>
      match varMap[var]?, gm.numLabels[var]? with
      | some c, some n =>
        match setAt shape c n with
        | none => none
        | some shape' => shapeLoop gm fv varMap (var + 1) k shape'
      | _, _ => none

/-- graphicalmodel_manipulator.hxx 332-341 (and 429-438): split the variables of a factor: fixed positions with labels, and the images of
the free variables. The third component is `subproblem`: `var2subProblem_` of the last free variable. -/
def splitLoop (gm : GM V) (f : FactorRec) (fv : List Bool) (fl varMap v2s : List Nat) :
    Nat → Nat → List (Nat × Nat) → List Nat → Nat → Option (List (Nat × Nat) × List Nat × Nat)
  | _, 0, fixedVars, mVars, sub => some (fixedVars, mVars, sub)
  | i, k + 1, fixedVars, mVars, sub =>
    match gm.visAt f i with
    | none => none
    | some var =>
      match fv[var]? with
      | none => none
      | some true =>
        match fl[var]? with
        | none => none
        | some l => splitLoop gm f fv fl varMap v2s (i + 1) k (fixedVars ++ [(i, l)]) mVars sub
      | some false =>
        match varMap[var]?, v2s[var]? with
        | some c, some s => splitLoop gm f fv fl varMap v2s (i + 1) k fixedVars (mVars ++ [c]) s
        | _, _ => none

/-- `mgm_.addFactor(mgm_.addFunction(func), begin, end)`. -/
def addTerm {W : Type} (mgm : GM W) (ty : Nat) (fn : Option (Fn W)) (vars : List Nat) : Option (GM W) :=
  match fn with
  | none => none
  | some fn =>
    match mgm.addFunction ty fn with
    | none => none
    | some (fid, mgm') =>
      match mgm'.addFactor fid vars with
      | .ok _ mgm'' => some mgm''
      | _ => none

/-- graphicalmodel_manipulator.hxx 347-351: `fixedStates[i] = fixVariableLabel_[gm_[f].variableIndex(i)]`. -/
def fixedStates (gm : GM V) (f : FactorRec) (fl : List Nat) : Nat → Nat → Option (List Nat)
  | _, 0 => some []
  | i, k + 1 =>
    match gm.visAt f i with
    | none => none
    | some var =>
      match fl[var]? with
      | none => none
      | some l => (fixedStates gm f fl (i + 1) k).map (fun t => l :: t)

/-- graphicalmodel_manipulator.hxx 350-352 `op(gm_[f](fixedStates.begin()), constant)`. -/
def addConstant (o : Operation V) (gm : GM V) (f : FactorRec) (fl : List Nat) (constant : V) : Option V :=
  match fixedStates gm f fl 0 f.visSize with
  | none => none
  | some st => (gm.callFactor f st).map (fun x => o.op constant x)

/-- graphicalmodel_manipulator.hxx 329-365: loop over the factors from index `fi`. -/
def buildLoop (o : Operation V) (m : Manip V) (varMap : List Nat) : List FactorRec → Nat → GM (Option V) → V →
    Option (GM (Option V) × V)
  | [], _, mgm, constant => some (mgm, constant)
  | f :: fs, fi, mgm, constant =>
    match m.tentacleFactor[fi]? with
    | none => none
    | some true => buildLoop o m varMap fs (fi + 1) mgm constant
    | some false =>
      match splitLoop m.gm f m.fixVariable m.fixVariableLabel varMap m.var2subProblem 0 f.visSize [] [] 0 with
      | none => none
      | some (fixedVars, mVars, _) =>
        match m.mode with
        | .fix =>
          if fixedVars.length = 0 then
            match addTerm mgm 1 (viewFunction m.gm f) mVars with
            | none => none
            | some mgm' => buildLoop o m varMap fs (fi + 1) mgm' constant
          else if fixedVars.length = f.visSize then
            match addConstant o m.gm f m.fixVariableLabel constant with
            | none => none
            | some constant' => buildLoop o m varMap fs (fi + 1) mgm constant'
          else
            match addTerm mgm 0 (viewFixFunction m.gm f fixedVars) mVars with
            | none => none
            | some mgm' => buildLoop o m varMap fs (fi + 1) mgm' constant
        | .drop =>
          if fixedVars.length = 0 then
            match addTerm mgm 1 (viewFunction m.gm f) mVars with
            | none => none
            | some mgm' => buildLoop o m varMap fs (fi + 1) mgm' constant
          else buildLoop o m varMap fs (fi + 1) mgm constant

/-- functions/constant.hxx: the constant function without variables (graphicalmodel_manipulator.hxx 374-378). -/
def constantFunction (c : V) : Fn (Option V) := ⟨[], fun _ => some c⟩

/-- graphicalmodel_manipulator.hxx 298-381 `buildModifiedModel`. -/
def buildModifiedModel (o : Operation V) (m : Manip V) : Option (Manip V) :=
  match varMapLoop m.fixVariable 0 m.gm.numberOfVariables 0 (List.replicate m.gm.numberOfVariables 0) with
  | none => none
  | some (count, varMap) =>
    match shapeLoop m.gm m.fixVariable varMap 0 m.gm.numberOfVariables (List.replicate count 0) with
    | none => none
    | some shape =>
      match buildLoop o m varMap m.gm.factors 0 (GM.ofSpace nTypes shape) o.neutral with
      | none => none
      | some (mgm, constant) =>
        match m.mode with
        | .fix =>
          match addTerm mgm 2 (some (constantFunction constant)) [] with
          | none => none
          | some mgm' => some { m with locked := true, validModel := true, mgm := mgm' }
        | .drop => some { m with locked := true, validModel := true, mgm := mgm }

/-! ### Submodels -/

/-- The variables of the factors of `var`, in the order of the two loops of `expand` (870-874). -/
def expandOrder (gm : GM V) (var : Nat) : Option (List Nat) :=
  match gm.adj[var]? with
  | none => none
  | some fs => (fs.mapM (fun fi => (gm.factors[fi]?).map gm.scope)).map List.flatten

/-- graphicalmodel_manipulator.hxx 863-878 `expand`: state is (`closedVar`, `var2subProblem_`). The recursion depth is bounded by `fuel`;
running out of it is `none` (it is shown not to happen). -/
def expand (gm : GM V) (ccn : Nat) : Nat → Nat → List Bool × List Nat → Option (List Bool × List Nat)
  | 0, _, _ => none
  | fuel + 1, var, st =>
    match st.1[var]? with
    | none => none
    | some true => some st
    | some false =>
      match setAt st.2 var ccn with
      | none => none
      | some v2s =>
        match expandOrder gm var with
        | none => none
        | some ws => ws.foldlM (fun st w => expand gm ccn fuel w st) (st.1.set var true, v2s)

/-- graphicalmodel_manipulator.hxx 394-402: one component per variable that is still open. -/
def componentsLoop (gm : GM V) : Nat → Nat → Nat → List Bool × List Nat → Option (Nat × (List Bool × List Nat))
  | _, 0, count, st => some (count, st)
  | var, k + 1, count, st =>
    match st.1[var]? with
    | none => none
    | some true => componentsLoop gm (var + 1) k count st
    | some false =>
      match expand gm count (gm.numberOfVariables + 1) var st with
      | none => none
      | some st' => componentsLoop gm (var + 1) k (count + 1) st'

/-- graphicalmodel_manipulator.hxx 406-411: `varMap[var] = numberOfVariables[var2subProblem_[var]]++` for free variables. -/
def subVarMapLoop (fv : List Bool) (v2s : List Nat) : Nat → Nat → List Nat → List Nat → Option (List Nat × List Nat)
  | _, 0, counts, varMap => some (counts, varMap)
  | var, k + 1, counts, varMap =>
    match fv[var]? with
    | none => none
    | some true => subVarMapLoop fv v2s (var + 1) k counts varMap
    | some false =>
      match v2s[var]? with
      | none => none
      | some s =>
        match counts[s]? with
        | none => none
        | some c =>
          match setAt varMap var c with
          | none => none
          | some varMap' => subVarMapLoop fv v2s (var + 1) k (counts.set s (c + 1)) varMap'

/-- graphicalmodel_manipulator.hxx 416-420: `shape[var2subProblem_[var]][varMap[var]] = gm_.numberOfLabels(var)`. -/
def subShapeLoop (gm : GM V) (fv : List Bool) (v2s varMap : List Nat) : Nat → Nat → List (List Nat) → Option (List (List Nat))
  | _, 0, shapes => some shapes
  | var, k + 1, shapes =>
    match fv[var]? with
    | none => none
    | some true => subShapeLoop gm fv v2s varMap (var + 1) k shapes
    | some false =>
      match v2s[var]?, varMap[var]?, gm.numLabels[var]? with
      | some s, some c, some n =>
        match shapes[s]? with
        | none => none
        | some sh =>
          match setAt sh c n with
          | none => none
          | some sh' => subShapeLoop gm fv v2s varMap (var + 1) k (shapes.set s sh')
      | _, _, _ => none

/-- `submodels_[s].addFactor(submodels_[s].addFunction(func), …)`. -/
def addSubTerm {W : Type} (subs : List (GM W)) (s ty : Nat) (fn : Option (Fn W)) (vars : List Nat) : Option (List (GM W)) :=
  match subs[s]? with
  | none => none
  | some g => (addTerm g ty fn vars).map (fun g' => subs.set s g')

/-- graphicalmodel_manipulator.hxx 432-466: loop over the factors. -/
def buildSubLoop (o : Operation V) (m : Manip V) (v2s varMap : List Nat) : List FactorRec → Nat → List (GM (Option V)) → V →
    Option (List (GM (Option V)) × V)
  | [], _, subs, constant => some (subs, constant)
  | f :: fs, fi, subs, constant =>
    match m.tentacleFactor[fi]? with
    | none => none
    | some true => buildSubLoop o m v2s varMap fs (fi + 1) subs constant
    | some false =>
      match splitLoop m.gm f m.fixVariable m.fixVariableLabel varMap v2s 0 f.visSize [] [] 0 with
      | none => none
      | some (fixedVars, mVars, sub) =>
        match m.mode with
        | .fix =>
          if mVars.length = 0 then
            match addConstant o m.gm f m.fixVariableLabel constant with
            | none => none
            | some constant' => buildSubLoop o m v2s varMap fs (fi + 1) subs constant'
          else if fixedVars.length = 0 then
            match addSubTerm subs sub 1 (viewFunction m.gm f) mVars with
            | none => none
            | some subs' => buildSubLoop o m v2s varMap fs (fi + 1) subs' constant
          else
            match addSubTerm subs sub 0 (viewFixFunction m.gm f fixedVars) mVars with
            | none => none
            | some subs' => buildSubLoop o m v2s varMap fs (fi + 1) subs' constant
        | .drop =>
          if fixedVars.length = 0 then
            match addSubTerm subs sub 1 (viewFunction m.gm f) mVars with
            | none => none
            | some subs' => buildSubLoop o m v2s varMap fs (fi + 1) subs' constant
          else buildSubLoop o m v2s varMap fs (fi + 1) subs constant

/-- graphicalmodel_manipulator.hxx 383-484 `buildModifiedSubModels`. -/
def buildModifiedSubModels (o : Operation V) (m : Manip V) : Option (Manip V) :=
  match componentsLoop m.gm 0 m.gm.numberOfVariables 0 (m.fixVariable, m.var2subProblem) with
  | none => none
  | some (count, (_, v2s)) =>
    let n := if count = 0 then 1 else count
    match subVarMapLoop m.fixVariable v2s 0 m.gm.numberOfVariables (List.replicate n 0) (List.replicate m.gm.numberOfVariables 0) with
    | none => none
    | some (counts, varMap) =>
      match subShapeLoop m.gm m.fixVariable v2s varMap 0 m.gm.numberOfVariables (counts.map (fun c => List.replicate c 0)) with
      | none => none
      | some shapes =>
        match buildSubLoop o m v2s varMap m.gm.factors 0 (shapes.map (fun sh => GM.ofSpace nTypes sh)) o.neutral with
        | none => none
        | some (subs, constant) =>
          match m.mode with
          | .fix =>
            match addSubTerm subs 0 2 (some (constantFunction constant)) [] with
            | none => none
            | some subs' => some { m with locked := true, validSubModels := true, submodels := subs', var2subProblem := v2s }
          | .drop => some { m with locked := true, validSubModels := true, submodels := subs, var2subProblem := v2s }

/-- graphicalmodel_manipulator.hxx 279-286: loop of `modifiedSubStates2OriginalState`. -/
def originalSubLoop (fv : List Bool) (fl v2s : List Nat) (subconf : List (List Nat)) : Nat → Nat → List Nat → Option (List Nat)
  | _, 0, _ => some []
  | var, k + 1, varCount =>
    match fv[var]? with
    | none => none
    | some true =>
      match fl[var]? with
      | none => none
      | some l => (originalSubLoop fv fl v2s subconf (var + 1) k varCount).map (fun t => l :: t)
    | some false =>
      match v2s[var]? with
      | none => none
      | some sp =>
        match varCount[sp]?, subconf[sp]? with
        | some c, some conf =>
          match conf[c]? with
          | none => none
          | some l => (originalSubLoop fv fl v2s subconf (var + 1) k (varCount.set sp (c + 1))).map (fun t => l :: t)
        | _, _ => none

/-- graphicalmodel_manipulator.hxx 271-295 `modifiedSubStates2OriginalState`. -/
def modifiedSubStates2OriginalState (m : Manip V) (subconf : List (List Nat)) : Option (List Nat) :=
  originalSubLoop m.fixVariable m.fixVariableLabel m.var2subProblem subconf 0 m.gm.numberOfVariables
    (List.replicate m.submodels.length 0)

/-- A call of a client. -/
def step (o : Operation V) (m : Manip V) : Spec.FixOp → Option (Manip V)
  | .fix v l => fixVariable m v l
  | .free v => freeVariable m v
  | .freeAll => some (freeAllVariables m)
  | .lock => some (lock m)
  | .unlock => some (unlock m)
  | .build => buildModifiedModel o m
  | .buildSub => buildModifiedSubModels o m

def run (o : Operation V) (m : Manip V) (ops : List Spec.FixOp) : Option (Manip V) := ops.foldlM (step o) m

end Manipulator
end OpenGM
