import Verif.Model.Basic
import Verif.Model.RandomAccessSet
import Verif.Spec.Energy
/-
Model of include/opengm/graphicalmodel/graphicalmodel.hxx (class GraphicalModel), of the part of
include/opengm/graphicalmodel/graphicalmodel_factor.hxx (class Factor) it uses, and of
include/opengm/graphicalmodel/space/discretespace.hxx.

Simplifications: values live in an abstract type `V`; the C++ type list of function classes is a list of tables
(one per type index) all holding the same abstract function record `Fn`.
-/
namespace OpenGM
open Spec (Operation)

/-- `std::less<IndexType>` on indices (the default comparator of RandomAccessSet and std::set). -/
def natLess (a b : Nat) : Bool := decide (a < b)

/-- A function object stored in a model (any class of include/opengm/functions/): its shape and its table of values.
Simplification: one record for all function classes; the classes themselves are modelled in Model/Functions. -/
abbrev Fn (V : Type) := Spec.Table V

/-- `buf[i] < shape[i]` for all dimensions, reading only the first `shape.length` entries of the buffer. -/
def inShape : List Nat → List Nat → Bool
  | [], _ => true
  | _ :: _, [] => false
  | n :: shape, l :: buf => decide (l < n) && inShape shape buf

/-- `function(iterator)`: call of a function object with a label iterator; `none` is undefined behaviour.
A function of dimension d reads the first d labels (explicit_function.hxx via marray.hxx 807-820, potts.hxx 105-115
etc.); labels must be below the extents. A 0-dimensional explicit function reads `*it` and requires it to be 0
(marray.hxx 6476-6489, an assertion), so the buffer must be non-empty and start with 0. Simplification: this
strictest contract is used for every function class. -/
def callFn {V : Type} (f : Fn V) (buf : List Nat) : Option V :=
  match f.shape with
  | [] => match buf with
    | 0 :: _ => some (f.table [])
    | _ => none
  | _ :: _ => if inShape f.shape buf then some (f.table (buf.take f.shape.length)) else none

/-- graphicalmodel.hxx 222-239 `FunctionIdentification`. -/
structure FunctionIdentifier where
  functionIndex : Nat
  functionType : Nat
deriving DecidableEq, Repr

namespace FunctionIdentifier

/-- graphicalmodel.hxx 876-887 `operator<`. -/
def lt (a b : FunctionIdentifier) : Bool :=
  if a.functionType < b.functionType then true else decide (a.functionIndex < b.functionIndex)

/-- graphicalmodel.hxx 889-900 `operator>`. -/
def gt (a b : FunctionIdentifier) : Bool :=
  if a.functionType > b.functionType then true else decide (a.functionIndex > b.functionIndex)

/-- graphicalmodel.hxx 902-913 `operator<=`. -/
def le (a b : FunctionIdentifier) : Bool :=
  if a.functionType ≤ b.functionType then true else decide (a.functionIndex ≤ b.functionIndex)

/-- graphicalmodel.hxx 915-926 `operator>=`. -/
def ge (a b : FunctionIdentifier) : Bool :=
  if a.functionType ≥ b.functionType then true else decide (a.functionIndex ≥ b.functionIndex)

/-- graphicalmodel.hxx 928-936 `operator==`. -/
def eq (a b : FunctionIdentifier) : Bool :=
  decide (a.functionType = b.functionType) && decide (a.functionIndex = b.functionIndex)

end FunctionIdentifier

/-- graphicalmodel_factor.hxx 30-240 `Factor` members `functionIndex_`, `functionTypeId_`, and the view `vis_`
(vector_view.hxx 86-90: start and size in the model's `factorsVis_`). The pointers `gm_` and `vis_.vectorPtr_` are
modelled in Model/ModelCopy. -/
structure FactorRec where
  functionIndex : Nat
  functionType : Nat
  visStart : Nat
  visSize : Nat
deriving DecidableEq, Repr

/-- graphicalmodel.hxx 185-191: data members of `GraphicalModel`: `space_` (numbers of labels),
`functionDataField_` (one vector of functions per function type), `variableFactorAdjaceny_`, `factors_`,
`factorsVis_`, `order_`. -/
structure GM (V : Type) where
  numLabels : List Nat
  functions : List (List (Fn V))
  adj : List (List Nat)
  factors : List FactorRec
  factorsVis : List Nat
  order : Nat

namespace GM
variable {V : Type}

/-- graphicalmodel.hxx 310-320: default constructor, for a type list with `nTypes` function types. -/
def empty (nTypes : Nat) : GM V :=
  { numLabels := [], functions := List.replicate nTypes [], adj := [], factors := [], factorsVis := [], order := 0 }

/-- graphicalmodel.hxx 350-372: constructor from a label space. -/
def ofSpace (nTypes : Nat) (space : List Nat) : GM V :=
  { numLabels := space, functions := List.replicate nTypes [], adj := List.replicate space.length [],
    factors := [], factorsVis := [], order := 0 }

/-- graphicalmodel.hxx 401, 432. -/
def numberOfVariables (gm : GM V) : Nat := gm.numLabels.length
def numberOfFactors (gm : GM V) : Nat := gm.factors.length

/-- graphicalmodel.hxx 373-385 `addVariable`: returns the new index. -/
def addVariable (gm : GM V) (nLabels : Nat) : Nat × GM V :=
  let gm' := { gm with numLabels := gm.numLabels ++ [nLabels], adj := gm.adj ++ [[]] }
  (gm'.numberOfVariables - 1, gm')

/-- graphicalmodel.hxx 525-550 `addFunction<FUNCTION_TYPE>` where `ty` is the index of the type in the type list
(a compile time constant; an index outside the list does not compile, modelled as `none`). -/
def addFunction (gm : GM V) (ty : Nat) (f : Fn V) : Option (FunctionIdentifier × GM V) :=
  match gm.functions[ty]? with
  | none => none
  | some tbl =>
    let functionIndex := tbl.length
    some (⟨functionIndex, ty⟩, { gm with functions := gm.functions.set ty (tbl ++ [f]) })

/-- The search loop of graphicalmodel.hxx 605-611, starting at position `i`. `eqv` is `operator==` of the class. -/
def findFunction (eqv : Fn V → Fn V → Bool) (f : Fn V) : List (Fn V) → Nat → Option Nat
  | [], _ => none
  | g :: rest, i => if eqv f g then some i else findFunction eqv f rest (i + 1)

/-- graphicalmodel.hxx 584-617 `addSharedFunction`. -/
def addSharedFunction (eqv : Fn V → Fn V → Bool) (gm : GM V) (ty : Nat) (f : Fn V) :
    Option (FunctionIdentifier × GM V) :=
  match gm.functions[ty]? with
  | none => none
  | some tbl =>
    match findFunction eqv f tbl 0 with
    | some i => some (⟨i, ty⟩, gm)
    | none => some (⟨tbl.length, ty⟩, { gm with functions := gm.functions.set ty (tbl ++ [f]) })

/-- graphicalmodel.hxx 634-649 `getFunction`. -/
def getFunction (gm : GM V) (fid : FunctionIdentifier) : Option (Fn V) :=
  (gm.functions[fid.functionType]?).bind (fun tbl => tbl[fid.functionIndex]?)

/-- `factor.variableIndex(i)` = `vis_[i]` = `factorsVis_[start+i]` (graphicalmodel_factor.hxx 536-544,
vector_view.hxx 78-80). Undefined when outside the vector. -/
def visAt (gm : GM V) (f : FactorRec) (i : Nat) : Option Nat := gm.factorsVis[f.visStart + i]?

/-- graphicalmodel.hxx 682-692: the checking/insertion loop of `addFactor`, from position `i`, `k` iterations left.
`OPENGM_CHECK_OP` throws; the adjacency insertion of earlier iterations stays. -/
def addFactorLoop (gm : GM V) (f : FactorRec) (factorIndex : Nat) : Nat → Nat → Outcome (GM V) Nat
  | _, 0 => .ok factorIndex gm
  | i, k + 1 =>
    match gm.visAt f i with
    | none => .ub
    | some vi =>
      -- if(i!=0) OPENGM_CHECK_OP(factor.variableIndex(i-1),<,factor.variableIndex(i))
      match (if i = 0 then some true else (gm.visAt f (i - 1)).map (fun vp => decide (vp < vi))) with
      | none => .ub
      | some false => .throw gm
      | some true =>
        -- OPENGM_CHECK_OP(factor.variableIndex(i),<,numberOfVariables())
        if vi < gm.numberOfVariables then
          match gm.adj[vi]? with
          | none => .ub
          | some s =>
            addFactorLoop
              { gm with adj := gm.adj.set vi (RandomAccessSet.insert natLess s factorIndex).1 }
              f factorIndex (i + 1) k
        else .throw gm

/-- graphicalmodel.hxx 669-681, shared by `addFactor` and `addFactorNonFinalized`: append the variable indices, update
`order_`, append the factor record. -/
def pushFactor (gm : GM V) (fid : FunctionIdentifier) (vars : List Nat) : GM V × FactorRec :=
  let indexInVisVector := gm.factorsVis.length
  let factorOrder := vars.length
  let f : FactorRec := ⟨fid.functionIndex, fid.functionType, indexInVisVector, factorOrder⟩
  ({ gm with factorsVis := gm.factorsVis ++ vars,
             order := max gm.order factorOrder,
             factors := gm.factors ++ [f] }, f)

/-- graphicalmodel.hxx 658-696 `addFactor(fid, begin, end)`. -/
def addFactor (gm : GM V) (fid : FunctionIdentifier) (vars : List Nat) : Outcome (GM V) Nat :=
  let factorIndex := gm.factors.length
  let (gm', f) := gm.pushFactor fid vars
  addFactorLoop gm' f factorIndex 0 f.visSize

/-- graphicalmodel.hxx 736-746: the checking loop of `addFactorNonFinalized` (no adjacency update). -/
def checkFactorLoop (gm : GM V) (f : FactorRec) (factorIndex : Nat) : Nat → Nat → Outcome (GM V) Nat
  | _, 0 => .ok factorIndex gm
  | i, k + 1 =>
    match gm.visAt f i with
    | none => .ub
    | some vi =>
      match (if i = 0 then some true else (gm.visAt f (i - 1)).map (fun vp => decide (vp < vi))) with
      | none => .ub
      | some false => .throw gm
      | some true =>
        if vi < gm.numberOfVariables then checkFactorLoop gm f factorIndex (i + 1) k else .throw gm

/-- graphicalmodel.hxx 709-750 `addFactorNonFinalized`. -/
def addFactorNonFinalized (gm : GM V) (fid : FunctionIdentifier) (vars : List Nat) : Outcome (GM V) Nat :=
  let factorIndex := gm.factors.length
  let (gm', f) := gm.pushFactor fid vars
  checkFactorLoop gm' f factorIndex 0 f.visSize

/-- graphicalmodel.hxx 761-765: inner loop of `finalize` for factor `fi`, position `v`, `k` left. The local
`std::set` of each variable is modelled as a sorted duplicate-free list. -/
def finalizeFactor (gm : GM V) (f : FactorRec) (fi : Nat) : Nat → Nat → List (List Nat) → Option (List (List Nat))
  | _, 0, sets => some sets
  | v, k + 1, sets =>
    match gm.visAt f v with
    | none => none
    | some vi =>
      match sets[vi]? with
      | none => none
      | some s =>
        finalizeFactor gm f fi (v + 1) k
          (sets.set vi (RandomAccessSet.insert natLess s fi).1)

/-- graphicalmodel.hxx 758-766: outer loop of `finalize`. -/
def finalizeLoop (gm : GM V) : List FactorRec → Nat → List (List Nat) → Option (List (List Nat))
  | [], _, sets => some sets
  | f :: fs, fi, sets =>
    match finalizeFactor gm f fi 0 f.visSize sets with
    | none => none
    | some sets' => finalizeLoop gm fs (fi + 1) sets'

/-- graphicalmodel.hxx 768-770: `variableFactorAdjaceny_[vi].assignFromSet(sets[vi])` for all variables. -/
def assignAdj (adj : List (List Nat)) : List (List Nat) → Nat → Option (List (List Nat))
  | [], _ => some adj
  | s :: sets, vi =>
    match setAt adj vi s with
    | none => none
    | some adj' => assignAdj adj' sets (vi + 1)

/-- graphicalmodel.hxx 753-771 `finalize`. -/
def finalize (gm : GM V) : Option (GM V) :=
  match finalizeLoop gm gm.factors 0 (List.replicate gm.numberOfVariables []) with
  | none => none
  | some sets =>
    match assignAdj gm.adj sets 0 with
    | none => none
    | some adj => some { gm with adj := adj }

/-- graphicalmodel.hxx 503-509 `factorOrder` (NDEBUG). -/
def factorOrder (gm : GM V) : Nat := gm.order

/-- `factor(iterator)` (graphicalmodel_factor.hxx 559-570): look the function up and call it. -/
def callFactor (gm : GM V) (f : FactorRec) (buf : List Nat) : Option V :=
  match gm.getFunction ⟨f.functionIndex, f.functionType⟩ with
  | none => none
  | some fn => callFn fn buf

/-- graphicalmodel.hxx 466-470: copy the labels of the factor's variables to the front of `factor_state`. -/
def fillState (gm : GM V) (labels : List Nat) (f : FactorRec) : Nat → Nat → List Nat → Option (List Nat)
  | _, 0, buf => some buf
  | i, k + 1, buf =>
    match gm.visAt f i with
    | none => none
    | some vi =>
      match labels[vi]? with
      | none => none
      | some l =>
        match setAt buf i l with
        | none => none
        | some buf' => fillState gm labels f (i + 1) k buf'

/-- graphicalmodel.hxx 459-472: the loop over the factors. -/
def evaluateLoop (o : Operation V) (gm : GM V) (labels : List Nat) : List FactorRec → List Nat → V → Option V
  | [], _, v => some v
  | f :: fs, buf, v =>
    match setAt buf 0 0 with
    | none => none
    | some buf0 =>
      match fillState gm labels f 0 f.visSize buf0 with
      | none => none
      | some buf1 =>
        match gm.callFactor f buf1 with
        | none => none
        | some val => evaluateLoop o gm labels fs buf1 (o.op v val)

/-- graphicalmodel.hxx 447-474 `evaluate(labels)`: `none` is undefined behaviour. `OperatorType::op(val, v)` is
`v = op v val` (operations/*.hxx two argument `op`). -/
def evaluate (o : Operation V) (gm : GM V) (labels : List Nat) : Option V :=
  evaluateLoop o gm labels gm.factors (List.replicate (gm.factorOrder + 1) 0) o.neutral

/-- graphicalmodel.hxx 478-499 `isValidIndexSequence`. -/
def isValidIndexSequence (gm : GM V) : List Nat → Bool
  | [] => true
  | v :: vs => go gm v vs
where
  go (gm : GM V) (v : Nat) : List Nat → Bool
    | [] => decide (v < gm.numberOfVariables)
    | w :: ws => decide (v < gm.numberOfVariables) && (decide (v < w) && go gm w ws)

/-! ### Observers -/

/-- `gm[f].variableIndicesBegin() .. End()` (graphicalmodel_factor.hxx 918-930): the variables of a factor record. -/
def scope (gm : GM V) (f : FactorRec) : List Nat := (gm.factorsVis.drop f.visStart).take f.visSize

/-- graphicalmodel.hxx 242-252, 297-308: `numberOfFactors(variable)`, `factorOfVariable`. -/
def factorsOfVariable (gm : GM V) (v : Nat) : Option (List Nat) := gm.adj[v]?

end GM
end OpenGM
