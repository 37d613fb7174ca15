import Verif.Model.FactorOps
import Verif.Model.Functions
import Verif.Model.GraphicalModel
/-
Model of include/opengm/inference/auxiliary/lp_reparametrization.hxx: LPReparametrisationStorage, ReparametrizationView, LPReparametrizer.

The operation of the graphical model is the sum. `none` is undefined behaviour (an access out of range) or the exception of localId. `abs` and the tolerance `epsilon` of the value type are exact.
-/
namespace OpenGM.Repa
variable {V : Type} [CommRing V] [LinearOrder V]

/-- lp_reparametrization.hxx 117-119: data members. The maps from variables to positions are lists of pairs. -/
structure Storage (V : Type) where
  gm : GM V
  dual : List (List (List V))
  localIds : List (List (Nat × Nat))

/-- `map[key] = value` -/
def mapSet (key value : Nat) : List (Nat × Nat) → List (Nat × Nat)
  | [] => [(key, value)]
  | e :: es => if e.1 = key then (key, value) :: es else e :: mapSet key value es

/-- lp_reparametrization.hxx 139-144: the loop over the variables of a factor, from position `n`, `k` left; `resize` fills with zeros. -/
def factorRows (gm : GM V) (f : FactorRec) : Nat → Nat → List (Nat × Nat) → Option (List (List V) × List (Nat × Nat))
  | _, 0, m => some ([], m)
  | n, k + 1, m =>
    match gm.visAt f n with
    | none => none
    | some v =>
      match gm.numLabels[v]? with
      | none => none
      | some l =>
        match factorRows gm f (n + 1) k (mapSet v n m) with
        | none => none
        | some (rows, m) => some (List.replicate l 0 :: rows, m)

/-- lp_reparametrization.hxx 128-147: the loop over the factors. -/
def constructLoop (gm : GM V) : List FactorRec → Option (List (List (List V)) × List (List (Nat × Nat)))
  | [] => some ([], [])
  | f :: fs =>
    match (if 2 ≤ f.visSize then factorRows gm f 0 f.visSize [] else some ([], [])), constructLoop gm fs with
    | some (rows, m), some (dual, ids) => some (rows :: dual, m :: ids)
    | _, _ => none

/-- lp_reparametrization.hxx 123-149: constructor. -/
def construct (gm : GM V) : Option (Storage V) :=
  match constructLoop gm gm.factors with
  | none => none
  | some (dual, ids) => some ⟨gm, dual, ids⟩

/-- lp_reparametrization.hxx 41-46 `get`, and the label. -/
def Storage.get (s : Storage V) (factorIndex relativeVarIndex label : Nat) : Option V :=
  match s.dual[factorIndex]? with
  | none => none
  | some rows =>
    match rows[relativeVarIndex]? with
    | none => none
    | some row => row[label]?

/-- lp_reparametrization.hxx 47-54: a write through the pointers of `getIterators`. -/
def Storage.write (s : Storage V) (factorIndex relativeVarIndex label : Nat) (x : V) : Option (Storage V) :=
  match s.dual[factorIndex]? with
  | none => none
  | some rows =>
    match rows[relativeVarIndex]? with
    | none => none
    | some row => if label < row.length then some { s with dual := s.dual.set factorIndex (rows.set relativeVarIndex (row.set label x)) } else none

/-- lp_reparametrization.hxx 105-108 `localId`. -/
def Storage.localId (s : Storage V) (factorId varIndex : Nat) : Option Nat :=
  match s.localIds[factorId]? with
  | none => none
  | some m => (m.find? (fun e => e.1 == varIndex)).map (fun e => e.2)

/-- lp_reparametrization.hxx 84-97: the loop of `getVariableValue` over the factors of the variable. -/
def variableLoop (s : Storage V) (varIndex label : Nat) : List Nat → V → Option V
  | [], res => some res
  | factorId :: ids, res =>
    match s.gm.factors[factorId]? with
    | none => none
    | some f =>
      if f.visSize = 1 then
        match s.gm.callFactor f [label] with
        | none => none
        | some e => variableLoop s varIndex label ids (res + e)
      else
        match s.localId factorId varIndex with
        | none => none
        | some n =>
          match s.get factorId n label with
          | none => none
          | some d => variableLoop s varIndex label ids (res - d)

/-- lp_reparametrization.hxx 80-100 `getVariableValue`. -/
def Storage.getVariableValue (s : Storage V) (varIndex label : Nat) : Option V :=
  match s.gm.factorsOfVariable varIndex with
  | none => none
  | some ids => variableLoop s varIndex label ids 0

/-- lp_reparametrization.hxx 66-71: the loop of `getFactorValue` from position `varId`; the labels are those left. -/
def factorLoop (s : Storage V) (findex : Nat) : Nat → Nat → List Nat → V → Option V
  | _, 0, _, res => some res
  | varId, k + 1, it, res =>
    match it with
    | [] => none
    | l :: it =>
      match s.get findex varId l with
      | none => none
      | some d => factorLoop s findex (varId + 1) k it (res + d)

/-- lp_reparametrization.hxx 57-78 `getFactorValue`. A factor without variables has no variable 0. -/
def Storage.getFactorValue (s : Storage V) (findex : Nat) (it : List Nat) : Option V :=
  match s.gm.factors[findex]? with
  | none => none
  | some f =>
    if 1 < f.visSize then
      match s.gm.callFactor f it with
      | none => none
      | some e => factorLoop s findex 0 f.visSize it e
    else if f.visSize = 0 then none
    else
      match s.gm.visAt f 0, it with
      | some v, l :: _ => s.getVariableValue v l
      | _, _ => none

/-- lp_reparametrization.hxx 255-262: `ReparametrizationView::operator()`. -/
def view (s : Storage V) (f : FactorRec) (factorId : Nat) (begin_ : List Nat) : Option V :=
  if f.visSize = 1 then
    match s.gm.visAt f 0, begin_ with
    | some v, l :: _ => s.getVariableValue v l
    | _, _ => none
  else s.getFactorValue factorId begin_

/-- lp_reparametrization.hxx 264: the numbers of labels of the variables, from position `i`, `k` left. -/
def viewShape (gm : GM V) (f : FactorRec) : Nat → Nat → Option (List Nat)
  | _, 0 => some []
  | i, k + 1 =>
    match gm.visAt f i with
    | none => none
    | some v =>
      match gm.numLabels[v]?, viewShape gm f (i + 1) k with
      | some n, some ns => some (n :: ns)
      | _, _ => none

/-- All tuples of labels of a shape. -/
def tuples : List Nat → List (List Nat)
  | [] => [[]]
  | n :: ns => (List.range n).flatMap (fun l => (tuples ns).map (fun t => l :: t))

/-- The view as function object. Simplification: the view reads the storage at each call, here the values of all tuples are read when the model is created, so this is the model as long as the storage is
not changed. (The value for tuples out of range is never read.) -/
def viewFunction (shape : List Nat) (read : List Nat → Option V) : Option (Fn V) :=
  if (tuples shape).all (fun c => (read c).isSome) then some ⟨shape, fun c => match read c with | some v => v | none => 0⟩ else none

/-- lp_reparametrization.hxx 315-321: the loop over the factors. -/
def modelLoop (s : Storage V) : Nat → List FactorRec → GM V → Option (GM V)
  | _, [], out => some out
  | factorID, f :: fs, out =>
    match viewShape s.gm f 0 f.visSize with
    | none => none
    | some shape =>
      match viewFunction shape (view s f factorID) with
      | none => none
      | some fn =>
        match out.addFunction 0 fn with
        | none => none
        | some (fId, out) =>
          match out.addFactor fId (s.gm.scope f) with
          | .ok _ out => modelLoop s (factorID + 1) fs out
          | _ => none

/-- lp_reparametrization.hxx 310-322 `getReparametrizedModel`. -/
def Storage.getReparametrizedModel (s : Storage V) : Option (GM V) := modelLoop s 0 s.gm.factors (GM.ofSpace 1 s.gm.numLabels)

/-- lp_reparametrization.hxx 165-183 `serialize`. -/
def Storage.serialize (s : Storage V) : List V := s.dual.flatten.flatten

/-- lp_reparametrization.hxx 197-203: the loop over the labels of one vector: the vector, what is left, and whether the end was reached. The exception leaves the entries written so far. -/
def readRow : List V → List V → Outcome (List V × List V) Unit
  | [], ser => .ok () ([], ser)
  | x :: row, [] => .throw (x :: row, [])
  | _ :: row, y :: ser =>
    match readRow row ser with
    | .ok _ (row, ser) => .ok () (y :: row, ser)
    | .throw (row, ser) => .throw (y :: row, ser)
    | .ub => .ub

/-- lp_reparametrization.hxx 193-204: the loop over the variables of a factor, `k` left. -/
def readRows : Nat → List (List V) → List V → Outcome (List (List V) × List V) Unit
  | 0, rows, ser => .ok () (rows, ser)
  | _ + 1, [], _ => .ub
  | k + 1, row :: rows, ser =>
    match readRow row ser with
    | .ok _ (row, ser) =>
      match readRows k rows ser with
      | .ok _ (rows, ser) => .ok () (row :: rows, ser)
      | .throw (rows, ser) => .throw (row :: rows, ser)
      | .ub => .ub
    | .throw (row, ser) => .throw (row :: rows, ser)
    | .ub => .ub

/-- lp_reparametrization.hxx 189-205: the loop over the factors. -/
def readFactors : List FactorRec → List (List (List V)) → List V → Outcome (List (List (List V)) × List V) Unit
  | [], dual, ser => .ok () (dual, ser)
  | _ :: _, [], _ => .ub
  | f :: fs, rows :: dual, ser =>
    match (if f.visSize = 1 then .ok () (rows, ser) else readRows f.visSize rows ser) with
    | .ok _ (rows, ser) =>
      match readFactors fs dual ser with
      | .ok _ (dual, ser) => .ok () (rows :: dual, ser)
      | .throw (dual, ser) => .throw (rows :: dual, ser)
      | .ub => .ub
    | .throw (rows, ser) => .throw (rows :: dual, ser)
    | .ub => .ub

/-- lp_reparametrization.hxx 185-208 `deserialize`. -/
def Storage.deserialize (s : Storage V) (serialization : List V) : Outcome (Storage V) Unit :=
  match readFactors s.gm.factors s.dual serialization with
  | .ok _ (dual, []) => .ok () { s with dual := dual }
  | .ok _ (dual, _ :: _) => .throw { s with dual := dual }
  | .throw (dual, _) => .throw { s with dual := dual }
  | .ub => .ub

/-! ### getArcConsistency -/

/-- ACC: its comparison, and its neutral element (Minimizer: less than, infinity; Maximizer: greater than, minus infinity). -/
structure Acc (V : Type) where
  bop : V → V → Bool
  neutral : V

/-- A factor of a model as operand of `accumulate`. -/
def operand (gm : GM V) (f : FactorRec) : Option (FactorOps.Fn V) :=
  (viewShape gm f 0 f.visSize).map (fun shape => ⟨shape, gm.callFactor f⟩)

/-- lp_reparametrization.hxx 366-369 with function_properties_base.hxx 539-557: `factor.max()` or `factor.min()`. -/
def worstValue (acc : Acc V) (op : FactorOps.Fn V) : Option V :=
  let fn : Functions.Fun V := ⟨op.shape, op.shape.foldl (· * ·) 1, op.eval⟩
  if acc.bop 0 1 then Functions.max fn else Functions.min fn

/-- What the first loop knows of a factor: `optimalValues`, `optimalLabelings`, `worstValue`. -/
structure FactorInfo (V : Type) where
  value : V
  labels : List Nat
  worst : V

/-- lp_reparametrization.hxx 349-372: the first loop; the factors from number `factorId`. The result has the factors, `locallyOptimalLabels` and `unaryFactors`. -/
def firstLoop (acc : Acc V) (gm : GM V) : Nat → List FactorRec → List Nat → Option (List (FactorInfo V) × List Nat × List Nat)
  | _, [], labels => some ([], labels, [])
  | factorId, f :: fs, labels =>
    match operand gm f with
    | none => none
    | some op =>
      match FactorOps.accumulateAllState acc.bop (FactorOps.minOp acc.bop) acc.neutral op with
      | none => none
      | some (value, opt) =>
        if f.visSize = 1 then
          match gm.visAt f 0, opt with
          | some v, l :: _ =>
            if v < labels.length then
              match firstLoop acc gm (factorId + 1) fs (labels.set v l) with
              | none => none
              | some (infos, labels, unary) => some (⟨value, opt, 0⟩ :: infos, labels, factorId :: unary)
            else none
          | _, _ => none
        else
          match worstValue acc op, firstLoop acc gm (factorId + 1) fs labels with
          | some w, some (infos, labels, unary) => some (⟨value, opt, w⟩ :: infos, labels, unary)
          | _, _ => none

/-- lp_reparametrization.hxx 404-405: the labels of the variables of a factor, from position `v`, `k` left. -/
def localLabels (gm : GM V) (f : FactorRec) (labels : List Nat) : Nat → Nat → Option (List Nat)
  | _, 0 => some []
  | v, k + 1 =>
    match gm.visAt f v with
    | none => none
    | some i =>
      match labels[i]?, localLabels gm f labels (v + 1) k with
      | some l, some ls => some (l :: ls)
      | _, _ => none

/-- lp_reparametrization.hxx 389-416: the loop over the factors of a variable: false as soon as one is not consistent. -/
def checkLoop (epsilon : V) (gm : GM V) (infos : List (FactorInfo V)) (labels : List Nat) (var : Nat) : List Nat → Option Bool
  | [] => some true
  | factorId :: ids =>
    match gm.factors[factorId]?, infos[factorId]? with
    | some f, some info =>
      if f.visSize ≤ 1 then checkLoop epsilon gm infos labels var ids
      else
        match info.labels[(gm.scope f).idxOf var]?, labels[var]? with
        | some a, some b =>
          if a = b then checkLoop epsilon gm infos labels var ids
          else
            match localLabels gm f labels 0 f.visSize with
            | none => none
            | some labeling =>
              match gm.callFactor f labeling with
              | none => none
              | some e => if |e - info.value| < f.visSize * |info.worst| * epsilon then checkLoop epsilon gm infos labels var ids else some false
        | _, _ => none
    | _, _ => none

/-- lp_reparametrization.hxx 384-417: the second loop, over the unary factors. -/
def secondLoop (epsilon : V) (gm : GM V) (infos : List (FactorInfo V)) (labels : List Nat) : List Nat → List Bool → Option (List Bool)
  | [], mask => some mask
  | u :: us, mask =>
    match gm.factors[u]? with
    | none => none
    | some f =>
      match gm.visAt f 0 with
      | none => none
      | some var =>
        match gm.factorsOfVariable var with
        | none => none
        | some ids =>
          match checkLoop epsilon gm infos labels var ids with
          | none => none
          | some ok =>
            if ok then secondLoop epsilon gm infos labels us mask
            else if var < mask.length then secondLoop epsilon gm infos labels us (mask.set var false)
            else none

/-- lp_reparametrization.hxx 324-419 `getArcConsistency`: the mask and the labeling. -/
def Storage.getArcConsistency (acc : Acc V) (epsilon : V) (s : Storage V) : Option (List Bool × List Nat) :=
  match s.getReparametrizedModel with
  | none => none
  | some gm =>
    match firstLoop acc gm 0 gm.factors (List.replicate gm.numberOfVariables 0) with
    | none => none
    | some (infos, labels, unary) => (secondLoop epsilon gm infos labels unary (List.replicate s.gm.numberOfVariables true)).map (fun mask => (mask, labels))

end OpenGM.Repa
