import Verif.Model.Client
import Verif.Spec.ModelStore
/-
Model of copies of class GraphicalModel (include/opengm/graphicalmodel/graphicalmodel.hxx: copy constructor 322-345, operator= 774-798,
operator= for other function type lists 801-835; graphicalmodel_function_wrapper.hxx 43-112 CopyFunctions).

Objects live in a store; their address is the position in the store; destroyed objects are `none`. Each factor of a model holds two
pointers: `gm_` to the model that owns it (through which functions are looked up) and `vis_.vec_` to a vector of variable indices of a model.
Evaluation follows these pointers.
-/
namespace OpenGM
open Spec
namespace ModelStore
variable {V : Type}

/-- A model object: classes of the type list; data members (Model/GraphicalModel); the pointers `gm_` and `vis_.vec_` of every factor. -/
structure Obj (V : Type) where
  classes : List Nat
  gm : GM V
  ptrs : List (Nat × Nat)

/-- A model object and the function identifiers a client keeps for it. -/
structure Place (V : Type) where
  obj : Obj V
  ids : List FunctionIdentifier

abbrev Store (V : Type) := List (Option (Place V))

/-- graphicalmodel_factor.hxx 536-544 `variableIndex(i)` = `vis_[i]` (vector_view.hxx 78-80), through the pointer `visPtr`. -/
def visAt (st : Store V) (visPtr : Nat) (f : FactorRec) (i : Nat) : Option Nat :=
  match st[visPtr]? with
  | some (some pl) => pl.obj.gm.factorsVis[f.visStart + i]?
  | _ => none

/-- graphicalmodel_factor.hxx 559-570 `operator()`, through the pointer `gm_`. -/
def callFactor (st : Store V) (gmPtr : Nat) (f : FactorRec) (buf : List Nat) : Option V :=
  match st[gmPtr]? with
  | some (some pl) => pl.obj.gm.callFactor f buf
  | _ => none

/-- graphicalmodel.hxx 466-470. -/
def fillState (st : Store V) (labels : List Nat) (visPtr : Nat) (f : FactorRec) : Nat → Nat → List Nat → Option (List Nat)
  | _, 0, buf => some buf
  | i, k + 1, buf =>
    match visAt st visPtr f i with
    | none => none
    | some vi =>
      match labels[vi]? with
      | none => none
      | some l =>
        match setAt buf i l with
        | none => none
        | some buf' => fillState st labels visPtr f (i + 1) k buf'

/-- graphicalmodel.hxx 459-472: loop over the factors (records with their pointers). -/
def evaluateLoop (o : Operation V) (st : Store V) (labels : List Nat) : List (FactorRec × Nat × Nat) → List Nat → V → Option V
  | [], _, v => some v
  | (f, gmPtr, visPtr) :: fs, buf, v =>
    match setAt buf 0 0 with
    | none => none
    | some buf0 =>
      match fillState st labels visPtr f 0 f.visSize buf0 with
      | none => none
      | some buf1 =>
        match callFactor st gmPtr f buf1 with
        | none => none
        | some val => evaluateLoop o st labels fs buf1 (o.op v val)

/-- graphicalmodel.hxx 447-474 `evaluate(labels)` of the object at address `a`. -/
def evaluate (o : Operation V) (st : Store V) (a : Nat) (labels : List Nat) : Option V :=
  match st[a]? with
  | some (some pl) =>
    evaluateLoop o st labels (pl.obj.gm.factors.zip pl.obj.ptrs) (List.replicate (pl.obj.gm.factorOrder + 1) 0) o.neutral
  | _ => none

/-- graphicalmodel.hxx 332-341, 786-793: loop body for one factor: `gm_ = this`, indices and `vis_` copied, `vis_.assignPtr(this->factorsVis_)`. -/
def copyFactor (this : Nat) (f : FactorRec × Nat × Nat) : FactorRec × Nat × Nat :=
  (⟨f.1.functionIndex, f.1.functionType, f.1.visStart, f.1.visSize⟩, this, this)

/-- graphicalmodel.hxx 322-345: copy constructor of an object at address `this`. -/
def copyConstruct (this : Nat) (src : Obj V) : Obj V :=
  let fs := (src.gm.factors.zip src.ptrs).map (copyFactor this)
  { classes := src.classes,
    gm := { numLabels := src.gm.numLabels, functions := src.gm.functions, adj := src.gm.adj, factors := fs.map Prod.fst,
            factorsVis := src.gm.factorsVis, order := src.gm.factorOrder },
    ptrs := fs.map Prod.snd }

/-- graphicalmodel.hxx 774-798 `operator=` (same type list) on the object at address `this`; `other` is the address of the source. -/
def assignSame (this other : Nat) (dst src : Obj V) : Obj V :=
  if this = other then dst
  else
    let fs := (src.gm.factors.zip src.ptrs).map (copyFactor this)
    { classes := dst.classes,
      gm := { numLabels := src.gm.numLabels, functions := src.gm.functions, adj := src.gm.adj, factors := fs.map Prod.fst,
              factorsVis := src.gm.factorsVis, order := src.gm.order },
      ptrs := fs.map Prod.snd }

/-- meta::GetIndexInTypeList / HasTypeInTypeList: position of a class in a type list. -/
def indexIn : List Nat → Nat → Option Nat
  | [], _ => none
  | c :: cs, x => if c = x then some 0 else (indexIn cs x).map (· + 1)

/-- graphicalmodel_function_wrapper.hxx 43-112 `CopyFunctions::op`: loop over the classes of the source with their functions. State: the
functions of the target and `srcFidToTarget` (`none` is -1). -/
def copyFunctions (dstClasses : List Nat) : List (Nat × List (Fn V)) → List (List (Fn V)) → List (Option Nat) →
    Outcome (List (List (Fn V))) (List (Option Nat))
  | [], dst, map => .ok map dst
  | (c, fs) :: rest, dst, map =>
    match indexIn dstClasses c with
    | some j =>
      match setAt dst j fs with
      | none => .ub
      | some dst' => copyFunctions dstClasses rest dst' (map ++ [some j])
    | none =>
      -- OPENGM_CHECK_OP(functionsS.size(),==,0)
      if fs.length = 0 then copyFunctions dstClasses rest dst (map ++ [none]) else .throw dst

/-- graphicalmodel.hxx 821-833: loop body for one factor with `srcFidToTarget`. The exception for -1 is shown not to occur; it is modelled as
`none`. -/
def copyFactorMapped (this : Nat) (map : List (Option Nat)) (f : FactorRec × Nat × Nat) : Option (FactorRec × Nat × Nat) :=
  match map[f.1.functionType]? with
  | some (some j) => some (⟨f.1.functionIndex, j, f.1.visStart, f.1.visSize⟩, this, this)
  | _ => none

/-- graphicalmodel.hxx 801-835 `operator=` for another type list. An exception leaves `space_` and some functions replaced. The value returned
is `srcFidToTarget`. -/
def assignOther (this : Nat) (dst src : Obj V) : Outcome (Obj V) (List (Option Nat)) :=
  match copyFunctions dst.classes (src.classes.zip src.gm.functions) dst.gm.functions [] with
  | .ub => .ub
  | .throw fns => .throw { dst with gm := { dst.gm with numLabels := src.gm.numLabels, functions := fns } }
  | .ok map fns =>
    match (src.gm.factors.zip src.ptrs).mapM (copyFactorMapped this map) with
    | none => .ub
    | some fs =>
      .ok map { classes := dst.classes,
                gm := { numLabels := src.gm.numLabels, functions := fns, adj := src.gm.adj, factors := fs.map Prod.fst,
                        factorsVis := src.gm.factorsVis, order := src.gm.order },
                ptrs := fs.map Prod.snd }

/-- A client that has assigned to a model of another type list translates the types in the function identifiers it keeps. -/
def translate (dstClasses srcClasses : List Nat) (id : FunctionIdentifier) : FunctionIdentifier :=
  match srcClasses[id.functionType]? with
  | none => id
  | some c =>
    match indexIn dstClasses c with
    | none => id
    | some j => ⟨id.functionIndex, j⟩

/-- Pointers of the factors after a call on the object at address `this`: `addFactor` appends a factor that is constructed with `this`
(graphicalmodel.hxx 676-681). -/
def newPtrs (this : Nat) (ptrs : List (Nat × Nat)) : BuildOp V → List (Nat × Nat)
  | .addFactor _ _ => ptrs ++ [(this, this)]
  | _ => ptrs

/-- A call of a client on the store. -/
def step (eqv : Fn V → Fn V → Bool) (st : Store V) : StoreOp V → Outcome (Store V) Unit
  | .create classes => .ok () (st ++ [some ⟨⟨classes, GM.empty classes.length, []⟩, []⟩])
  | .createSpace classes space => .ok () (st ++ [some ⟨⟨classes, GM.ofSpace classes.length space, []⟩, []⟩])
  | .build a op =>
    match st[a]? with
    | some (some pl) =>
      match Client.step eqv ⟨pl.obj.gm, pl.ids⟩ op with
      | .ok _ c => .ok () (st.set a (some ⟨⟨pl.obj.classes, c.gm, newPtrs a pl.obj.ptrs op⟩, c.ids⟩))
      | .throw c => .throw (st.set a (some ⟨⟨pl.obj.classes, c.gm, newPtrs a pl.obj.ptrs op⟩, c.ids⟩))
      | .ub => .ub
    | _ => .ub
  | .copy a =>
    match st[a]? with
    | some (some pl) => .ok () (st ++ [some ⟨copyConstruct st.length pl.obj, pl.ids⟩])
    | _ => .ub
  | .assign a b =>
    match st[a]?, st[b]? with
    | some (some A), some (some B) =>
      if A.obj.classes = B.obj.classes then .ok () (st.set a (some ⟨assignSame a b A.obj B.obj, B.ids⟩))
      else
        match assignOther a A.obj B.obj with
        | .ok _ obj => .ok () (st.set a (some ⟨obj, B.ids.map (translate A.obj.classes B.obj.classes)⟩))
        | .throw obj => .throw (st.set a (some ⟨obj, A.ids⟩))
        | .ub => .ub
    | _, _ => .ub
  | .destroy a => .ok () (st.set a none)

/-- A history; stops at the first exception or undefined behaviour. -/
def run (eqv : Fn V → Fn V → Bool) : Store V → List (StoreOp V) → Outcome (Store V) Unit
  | st, [] => .ok () st
  | st, op :: ops =>
    match step eqv st op with
    | .ok _ st' => run eqv st' ops
    | .throw st' => .throw st'
    | .ub => .ub

end ModelStore
end OpenGM
