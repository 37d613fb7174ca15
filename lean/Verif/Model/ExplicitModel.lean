import Verif.Model.GraphicalModel
import Verif.Model.FactorOps
import Verif.Spec.Tuples
/-
Model of include/opengm/graphicalmodel/graphicalmodel_explicit_storage.hxx: class ExplicitStorage (all values of all functions of a model in one block of memory)
and class ConvertToExplicit (a model that stores every function as a table).

Simplifications: the recursion over the function types at compile time (class FunctionIteratation) is a recursion over the list of the functions of each type; numbers do
not overflow. `std::map` is the list of its entries together with the requirement the C++ standard puts on the comparison of its keys (a strict weak order); a call with keys
for which the requirement does not hold is undefined.
-/
namespace OpenGM
namespace ExplicitModel
open Marray Walkers FactorOps
variable {V : Type}

/-- `function.size()`: the product of the shape. -/
def fnSize (f : Fn V) : Nat := f.shape.foldl (· * ·) 1

/-! ### ExplicitStorage -/

/-- graphicalmodel_explicit_storage.hxx 121-127: the data members. An entry of `data_` that has not been written is `none`. -/
structure Storage (V : Type) where
  functionSize : List Nat
  functionTypeStart : List Nat
  functionIndexToStart : List Nat
  data : List (Option V)

/-- 130-132 `fidToIndex`. -/
def Storage.fidToIndex (s : Storage V) (functionType functionIndex : Nat) : Option Nat :=
  (s.functionTypeStart[functionType]?).map (fun b => b + functionIndex)

/-- 93-95: the loop that computes `functionTypeStart_[i]`. -/
def typeStart (sizes : List Nat) (i : Nat) : Option Nat :=
  (List.range i).foldlM (fun acc ii => (sizes[ii]?).map (fun n => acc + n)) 0

/-- 91-96: `functionTypeStart_`. -/
def typeStarts (sizes : List Nat) : List Nat → Option (List Nat)
  | [] => some []
  | i :: is =>
    match typeStart sizes i, typeStarts sizes is with
    | some b, some bs => some (b :: bs)
    | _, _ => none

/-- 185-193 `FunctionIteratation::size`: the storage needed. -/
def neededStorage : List (List (Fn V)) → Nat → Nat
  | [], n => n
  | fs :: rest, n => neededStorage rest (fs.foldl (fun a f => a + fnSize f) n)

/-- 213-217: write the values of a function, from the `i`-th on (`k` left), with the walker at `c`. -/
def storeValues (f : Fn V) (currentOffset : Nat) : Nat → Nat → List Nat → List (Option V) → Option (List (Option V))
  | _, 0, _, data => some data
  | i, k + 1, c, data =>
    match callFn f c with
    | none => none
    | some x =>
      match setAt data (currentOffset + i) (some x) with
      | none => none
      | some data' =>
        match shapeWalkerNext f.shape c with
        | none => none
        | some c' => storeValues f currentOffset (i + 1) k c' data'

/-- 202-219: the functions of type `ty`, from index `f` on; the result contains the new `currentOffset`. -/
def storeType (ty : Nat) : Nat → List (Fn V) → Storage V → Nat → Option (Storage V × Nat)
  | _, [], s, off => some (s, off)
  | f, fn :: fs, s, off =>
    match s.fidToIndex ty f with
    | none => none
    | some fIndex =>
      match setAt s.functionIndexToStart fIndex off with
      | none => none
      | some starts =>
        match storeValues fn off 0 (fnSize fn) (shapeWalkerInit fn.shape) s.data with
        | none => none
        | some data => storeType ty (f + 1) fs { s with functionIndexToStart := starts, data := data } (off + fnSize fn)

/-- 195-221 `FunctionIteratation::store`, from function type `ty` on. -/
def storeAll : Nat → List (List (Fn V)) → Storage V → Nat → Option (Storage V × Nat)
  | _, [], s, off => some (s, off)
  | ty, fs :: rest, s, off =>
    match storeType ty 0 fs s off with
    | none => none
    | some (s', off') => storeAll (ty + 1) rest s' off'

/-- 78-111: the constructor. -/
def Storage.make (gm : GM V) : Option (Storage V) :=
  let functionSize := gm.functions.map List.length
  let numFTotal := functionSize.foldl (· + ·) 0
  match typeStarts functionSize (List.range gm.functions.length) with
  | none => none
  | some functionTypeStart =>
    let s : Storage V := ⟨functionSize, functionTypeStart, List.replicate numFTotal 0, List.replicate (neededStorage gm.functions 0) none⟩
    (storeAll 0 gm.functions s 0).map Prod.fst

/-- 116-119 `operator[](factor)`: the position of the first value. -/
def Storage.start (s : Storage V) (f : FactorRec) : Option Nat :=
  (s.fidToIndex f.functionType f.functionIndex).bind (fun scalarIndex => s.functionIndexToStart[scalarIndex]?)

/-- `storage[factor][i]`; reading past the block, or a value that has not been written, is undefined. -/
def Storage.read (s : Storage V) (f : FactorRec) (i : Nat) : Option V :=
  match s.start f with
  | none => none
  | some b =>
    match s.data[b + i]? with
    | some (some x) => some x
    | _ => none

/-- Objects that own a block: the address of the block (127). -/
structure Owner where
  block : Nat
deriving DecidableEq

/-- The blocks that have been allocated and not been deleted. -/
abbrev Blocks := List Nat

/-- 104: `new ValueType[...]`. -/
def Owner.make (address : Nat) (h : Blocks) : Owner × Blocks := (⟨address⟩, address :: h)

/-- The copy constructor the compiler generates (the class declares none): the pointer is copied. -/
def Owner.copy (o : Owner) (h : Blocks) : Owner × Blocks := (⟨o.block⟩, h)

/-- 112-114: the destructor; deleting a block that is not allocated is undefined. -/
def Owner.destroy (o : Owner) (h : Blocks) : Option Blocks := if o.block ∈ h then some (h.erase o.block) else none

/-! ### ConvertToExplicit -/

/-- The requirement on the keys of a `std::map` with `operator<`: a strict weak order. -/
def strictWeak (keys : List FunctionIdentifier) : Bool :=
  keys.all (fun a => keys.all (fun b => keys.all (fun c =>
    !(a.lt b && b.lt a) && (!(a.lt b && b.lt c) || a.lt c) &&
    (!(!(a.lt b) && !(b.lt a) && !(b.lt c) && !(c.lt b)) || (!(a.lt c) && !(c.lt a))))))

/-- 169: `std::map<GmFunctionIdentifier, FunctionIdentifier>`. -/
abbrev FidMap := List (FunctionIdentifier × FunctionIdentifier)

/-- The entry with a key equivalent to `k`. -/
def mapFind (m : FidMap) (k : FunctionIdentifier) : Option (FunctionIdentifier × FunctionIdentifier) :=
  m.find? (fun e => !(e.1.lt k) && !(k.lt e.1))

/-- `m[k] = v`. -/
def mapAssign (m : FidMap) (k v : FunctionIdentifier) : Option FidMap :=
  if strictWeak (k :: m.map Prod.fst) then
    match mapFind m k with
    | some _ => some (m.map (fun e => if !(e.1.lt k) && !(k.lt e.1) then (e.1, v) else e))
    | none => some (m ++ [(k, v)])
  else none

/-- `m[k]` as a value: a missing key is inserted with the default identifier. -/
def mapGet (m : FidMap) (k : FunctionIdentifier) : Option (FunctionIdentifier × FidMap) :=
  if strictWeak (k :: m.map Prod.fst) then
    match mapFind m k with
    | some e => some (e.2, m)
    | none => some (⟨0, 0⟩, m ++ [(k, ⟨0, 0⟩)])
  else none

/-- 236-241: the table of a function; `zero` is `ValueType()`. -/
def explicitTable (zero : V) (f : Fn V) : Option (Arr V) :=
  walkLoop (fun s : Nat × List Nat => (shapeWalkerNext f.shape s.2).map (fun c => (s.1 + 1, c)))
    (fun s a => assignIndex id a s.1 (callFn f s.2)) (fnSize f) (0, shapeWalkerInit f.shape) (Arr.make f.shape zero defaultOrder)

/-- The table as a function of the new model. (The value for labels out of range is never read, see `callFn`.) -/
def arrFn (zero : V) (a : Arr V) : Option (Fn V) :=
  if (Spec.allTuples a.geometry.shape).all (fun c => (a.get c).isSome) then
    some ⟨a.geometry.shape, fun c => match a.get c with | some v => v | none => zero⟩
  else none

/-- 231-245: the functions of type `ty`, from index `f` on. -/
def convertType (zero : V) (ty : Nat) : Nat → List (Fn V) → GM V → FidMap → Option (GM V × FidMap)
  | _, [], out, m => some (out, m)
  | f, fn :: fs, out, m =>
    match (explicitTable zero fn).bind (arrFn zero) with
    | none => none
    | some g =>
      match out.addFunction 0 g with
      | none => none
      | some (fid, out') =>
        match mapAssign m ⟨f, ty⟩ fid with
        | none => none
        | some m' => convertType zero ty (f + 1) fs out' m'

/-- 223-247 `FunctionIteratation::convert`, from function type `ty` on. -/
def convertAll (zero : V) : Nat → List (List (Fn V)) → GM V → FidMap → Option (GM V × FidMap)
  | _, [], out, m => some (out, m)
  | ty, fs :: rest, out, m =>
    match convertType zero ty 0 fs out m with
    | none => none
    | some (out', m') => convertAll zero (ty + 1) rest out' m'

/-- 172-176: the loop over the factors. -/
def convertFactors (gm : GM V) : List FactorRec → GM V → FidMap → Outcome (GM V) Unit
  | [], out, _ => .ok () out
  | f :: fs, out, m =>
    match mapGet m ⟨f.functionIndex, f.functionType⟩ with
    | none => .ub
    | some (fid, m') =>
      match out.addFactor fid (gm.scope f) with
      | .ok _ out' => convertFactors gm fs out' m'
      | .throw out' => .throw out'
      | .ub => .ub

/-- 162-177 `convert`; `assign(space)` (graphicalmodel.hxx 390-397) replaces the old value of `explicitGm` by a new model. -/
def convert (zero : V) (gm : GM V) : Outcome (GM V) Unit :=
  match convertAll zero 0 gm.functions (GM.ofSpace 1 gm.numLabels) [] with
  | none => .ub
  | some (out, m) => convertFactors gm gm.factors out m

end ExplicitModel
end OpenGM
