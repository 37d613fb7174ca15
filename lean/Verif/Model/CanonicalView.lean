import Verif.Model.ExplicitModel
import Verif.Model.Manipulator
/-
Model of include/opengm/utilities/canonical_view.hxx (CanonicalView with CloneNever, the default; FunctionInjector) and of the accumulated views it creates
(include/opengm/functions/accumulated_view.hxx 91-120). The canonical view refers to factors of the wrapped model, so its values may be undefined: it is a
`GM (Option V)`. The merged list of function types is given by its length and by the positions in it of the old types, of ConstantFunction and of
AccumulatedViewFunction. A pointer to a factor of the wrapped model is the factor record. The options CloneViews and CloneDeep, which copy functions to tables, are
not modelled.
-/
namespace OpenGM
namespace CanonicalView
open Spec (Operation)
open ExplicitModel (FidMap strictWeak mapFind mapAssign)
variable {V : Type}

/-- 69-90: the merged type list `MergeTypeListsWithoutDups<OldTypeList, NewTypeList>`. -/
structure Types where
  n : Nat
  old : Nat → Nat
  const : Nat
  view : Nat

/-- `std::vector::operator<` (lexicographical comparison), the order of the keys of `otherFactors`. -/
def lexLt : List Nat → List Nat → Bool
  | _, [] => false
  | [], _ :: _ => true
  | a :: s, b :: t => if a < b then true else if b < a then false else lexLt s t

/-- 254: `std::map<Variables, Factors>`, its entries in the order of the keys. -/
abbrev FactorMap := List (List Nat × List FactorRec)

/-- 271: `otherFactors[vars].push_back(&f)`. -/
def mapPush (k : List Nat) (f : FactorRec) : FactorMap → FactorMap
  | [] => [(k, [f])]
  | (k', fs) :: rest =>
    if lexLt k' k then (k', fs) :: mapPush k f rest
    else if lexLt k k' then (k, [f]) :: (k', fs) :: rest
    else (k', fs ++ [f]) :: rest

/-- 265-273: the loop over the factors of the wrapped model. -/
def groupLoop (gm : GM V) : List FactorRec → List (List FactorRec) → FactorMap → Option (List (List FactorRec) × FactorMap)
  | [], unary, other => some (unary, other)
  | f :: fs, unary, other =>
    if f.visSize = 1 then
      match gm.visAt f 0 with
      | none => none
      | some v =>
        match unary[v]? with
        | none => none
        | some us => groupLoop gm fs (unary.set v (us ++ [f])) other
    else groupLoop gm fs unary (mapPush (gm.scope f) f other)

/-- A function of the wrapped model as function of the canonical view (the object is copied). -/
def wrap (fn : Fn V) : Fn (Option V) := ⟨fn.shape, fun c => some (fn.table c)⟩

/-- 180-199 `FunctionInjector::inject` with 143-169 `FunctionInjectionFunctor`. -/
def inject (T : Types) (gm : GM V) (cv : GM (Option V)) (m : FidMap) (f : FactorRec) : Option (FunctionIdentifier × GM (Option V) × FidMap) :=
  if strictWeak (⟨f.functionIndex, f.functionType⟩ :: m.map Prod.fst) then
    match mapFind m ⟨f.functionIndex, f.functionType⟩ with
    | some e => some (e.2, cv, m)
    | none =>
      match gm.getFunction ⟨f.functionIndex, f.functionType⟩ with
      | none => none
      | some fn =>
        match cv.addFunction (T.old f.functionType) (wrap fn) with
        | none => none
        | some (fid, cv') => (mapAssign m ⟨f.functionIndex, f.functionType⟩ fid).map (fun m' => (fid, cv', m'))
  else none

/-- accumulated_view.hxx 100-103: the loop over the factors; a factor of order 0 is called with the iterator it gets, which points to a 0 (contract of
`callFn`). -/
def accumulate (o : Operation V) (gm : GM V) (labels : List Nat) : List FactorRec → V → Option V
  | [], result => some result
  | f :: fs, result =>
    match gm.callFactor f (labels ++ [0]) with
    | none => none
    | some x => accumulate o gm labels fs (o.op result x)

/-- accumulated_view.hxx 77-126: an accumulated view; dimension and shape are those of the first factor. -/
def viewOf (o : Operation V) (gm : GM V) : List FactorRec → Option (Fn (Option V))
  | [] => none
  | f :: fs => (Manipulator.factorShape gm f 0 f.visSize).map (fun s => ⟨s, fun labels => accumulate o gm labels (f :: fs) o.neutral⟩)

/-- 293-297, 315-317: a new view function. -/
def addView (T : Types) (o : Operation V) (gm : GM V) (cv : GM (Option V)) (m : FidMap) (fs : List FactorRec) :
    Option (FunctionIdentifier × GM (Option V) × FidMap) :=
  match viewOf o gm fs with
  | none => none
  | some fn => (cv.addFunction T.view fn).map (fun r => (r.1, r.2, m))

/-- 281-298: the function for the unary factor of variable `i`; `zero` is the value 0 of the constant function. -/
def unaryFunction (T : Types) (o : Operation V) (zero : V) (gm : GM V) (cv : GM (Option V)) (m : FidMap) (i : Nat) (fs : List FactorRec) :
    Option (FunctionIdentifier × GM (Option V) × FidMap) :=
  match fs with
  | [] =>
    match gm.numLabels[i]? with
    | none => none
    | some n => (cv.addFunction T.const ⟨[n], fun _ => some zero⟩).map (fun r => (r.1, r.2, m))
  | [f] => inject T gm cv m f
  | _ => addView T o gm cv m fs

/-- 310-318: the function for a factor of other order. -/
def otherFunction (T : Types) (o : Operation V) (gm : GM V) (cv : GM (Option V)) (m : FidMap) (fs : List FactorRec) :
    Option (FunctionIdentifier × GM (Option V) × FidMap) :=
  match fs with
  | [f] => inject T gm cv m f
  | _ => addView T o gm cv m fs

/-- 277-301: the loop over the variables, from variable `i` on. -/
def unaryLoop (T : Types) (o : Operation V) (zero : V) (gm : GM V) : Nat → List (List FactorRec) → GM (Option V) → FidMap → Option (GM (Option V) × FidMap)
  | _, [], cv, m => some (cv, m)
  | i, fs :: rest, cv, m =>
    match unaryFunction T o zero gm cv m i fs with
    | none => none
    | some (fid, cv', m') =>
      match cv'.addFactor fid [i] with
      | .ok _ cv'' => unaryLoop T o zero gm (i + 1) rest cv'' m'
      | _ => none

/-- 304-321: the loop over the map. -/
def otherLoop (T : Types) (o : Operation V) (gm : GM V) : FactorMap → GM (Option V) → FidMap → Option (GM (Option V) × FidMap)
  | [], cv, m => some (cv, m)
  | (vars, fs) :: rest, cv, m =>
    match otherFunction T o gm cv m fs with
    | none => none
    | some (fid, cv', m') =>
      match cv'.addFactor fid vars with
      | .ok _ cv'' => otherLoop T o gm rest cv'' m'
      | _ => none

/-- 246-322: the constructor; `none` is undefined behaviour or an exception. -/
def make (T : Types) (o : Operation V) (zero : V) (gm : GM V) : Option (GM (Option V)) :=
  match groupLoop gm gm.factors (List.replicate gm.numberOfVariables []) [] with
  | none => none
  | some (unary, other) =>
    match unaryLoop T o zero gm 0 unary (GM.ofSpace T.n gm.numLabels) [] with
    | none => none
    | some (cv, m) => (otherLoop T o gm other cv m).map Prod.fst

end CanonicalView
end OpenGM
