import Verif.Model.GraphicalModel
import Verif.Model.FunctionStorage
/-
Model of include/opengm/graphicalmodel/graphicalmodel_hdf5.hxx: saving a graphical model to a file and loading it.

The file is the tree of groups and datasets. Not modelled: failures of the file system, overflow of 64 bit numbers, and the conversion of values between the
stored and the requested value type (both models have the same value type, for which the stored type is exact). Function classes: those in
include/opengm/functions with registered ids 0 to 8 and 11 above the offset; not the learnable, constraint, single site and user defined classes.
-/
namespace OpenGM
namespace Hdf5
open Functions Marray
variable {V : Type} [CommRing V] [LinearOrder V]

/-- The function classes of a type list. -/
inductive Cls where
  | explicit
  | sparse
  | absoluteDifference
  | truncatedAbsoluteDifference
  | squaredDifference
  | truncatedSquaredDifference
  | potts
  | pottsN
  | constant
  | pottsG
  deriving DecidableEq

/-- `FunctionRegistration<F>::Id`: function_registration.hxx 11, explicit_function.hxx 68, sparsemarray.hxx 15, absolute_difference.hxx 41,
truncated_absolute_difference.hxx 42, squared_difference.hxx 41, truncated_squared_difference.hxx 43, potts.hxx 63, pottsn.hxx 51, constant.hxx 64,
pottsg.hxx 76. -/
def Cls.id : Cls → Nat
  | .explicit => 16000
  | .sparse => 16000 + 1
  | .absoluteDifference => 16000 + 2
  | .truncatedAbsoluteDifference => 16000 + 3
  | .squaredDifference => 16000 + 4
  | .truncatedSquaredDifference => 16000 + 5
  | .potts => 16000 + 6
  | .pottsN => 16000 + 7
  | .constant => 16000 + 8
  | .pottsG => 16000 + 11

/-- A function object of one of the classes. -/
inductive Obj (V : Type) where
  | explicit (a : Arr V)
  | sparse (f : Sparse V)
  | absoluteDifference (f : Difference V)
  | truncatedAbsoluteDifference (f : Truncated V)
  | squaredDifference (f : Difference V)
  | truncatedSquaredDifference (f : Truncated V)
  | potts (f : Potts V)
  | pottsN (f : PottsN V)
  | constant (f : Constant V)
  | pottsG (f : PottsG V)

/-- The class of an object. -/
def Obj.cls : Obj V → Cls
  | .explicit _ => .explicit
  | .sparse _ => .sparse
  | .absoluteDifference _ => .absoluteDifference
  | .truncatedAbsoluteDifference _ => .truncatedAbsoluteDifference
  | .squaredDifference _ => .squaredDifference
  | .truncatedSquaredDifference _ => .truncatedSquaredDifference
  | .potts _ => .potts
  | .pottsN _ => .pottsN
  | .constant _ => .constant
  | .pottsG _ => .pottsG

/-- `FunctionSerialization<F>::indexSequenceSize` and `valueSequenceSize` (Model/FunctionStorage.lean). -/
def Obj.sizes : Obj V → Nat × Nat
  | .explicit a => Explicit.sizes a
  | .sparse f => f.sizes
  | .absoluteDifference f => f.sizes
  | .truncatedAbsoluteDifference f => f.sizes
  | .squaredDifference f => f.sizes
  | .truncatedSquaredDifference f => f.sizes
  | .potts f => f.sizes
  | .pottsN f => f.sizes
  | .constant f => f.sizes
  | .pottsG f => f.sizes

/-- `FunctionSerialization<F>::serialize` (Model/Functions.lean, Model/FunctionStorage.lean). -/
def Obj.serialize : Obj V → Option (List Nat × List V)
  | .explicit a => Explicit.serialize a
  | .sparse f => some f.serialize
  | .absoluteDifference f => f.serializeAbs
  | .truncatedAbsoluteDifference f => some f.serialize
  | .squaredDifference f => some f.serializeSq
  | .truncatedSquaredDifference f => some f.serialize
  | .potts f => some f.serialize
  | .pottsN f => some f.serialize
  | .constant f => some f.serialize
  | .pottsG f => some f.serialize

/-- The result of a deserialisation that cannot throw and does not use the static tables `parts`. -/
def plain {α : Type} (mk : α → Obj V) (parts : List Nat) : Option α → Outcome (List Nat) (Obj V)
  | none => .ub
  | some a => .ok (mk a) parts

/-- `FunctionSerialization<F>::deserialize`; the state is the static table of class Partitions, which PottsG functions use. The old value of the function
object is overwritten. -/
def Cls.deserialize (c : Cls) (ix : List Nat) (vs : List V) (parts : List Nat) : Outcome (List Nat) (Obj V) :=
  match c with
  | .explicit => plain .explicit parts (Explicit.deserialize 0 ix vs)
  | .sparse => plain .sparse parts (Sparse.deserialize ix vs)
  | .absoluteDifference => plain .absoluteDifference parts (Difference.deserialize ix vs)
  | .truncatedAbsoluteDifference => plain .truncatedAbsoluteDifference parts (Truncated.deserialize ix vs)
  | .squaredDifference => plain .squaredDifference parts (Difference.deserialize ix vs)
  | .truncatedSquaredDifference => plain .truncatedSquaredDifference parts (Truncated.deserialize ix vs)
  | .potts => plain .potts parts (Potts.deserialize ix vs)
  | .pottsN => plain .pottsN parts (PottsN.deserialize ix vs)
  | .constant => plain .constant parts (Constant.deserialize ix vs)
  | .pottsG =>
    match PottsG.deserialize 0 ix vs parts with
    | .ok f p => .ok (.pottsG f) p
    | .throw p => .throw p
    | .ub => .ub

/-- graphicalmodel.hxx 185-191: the data members of a model, as `GM` (Model/GraphicalModel.lean), but with function objects of the classes. -/
structure Store (V : Type) where
  numLabels : List Nat
  functions : List (List (Obj V))
  adj : List (List Nat)
  factors : List FactorRec
  factorsVis : List Nat
  order : Nat

/-- graphicalmodel.hxx 310-320: default constructor, for a type list with `nTypes` function types. -/
def Store.empty (nTypes : Nat) : Store V := ⟨[], List.replicate nTypes [], [], [], [], 0⟩

/-- A file with one group `datasetName`: the datasets "header", "numbers-of-states", the groups "function-id-..." (by id) with the datasets "indices" and
"values", and the dataset "factors". -/
structure File (V : Type) where
  header : List Nat
  states : List Nat
  groups : List (Nat × List Nat × List V)
  factors : Option (List Nat)

/-- marray_hdf5.hxx 313-395, 422-435 `save` of a vector: an array for an empty vector has no memory (marray.hxx 4694-4713), and the entry at address 0 is
written to the file. -/
def saveVector {α : Type} (l : List α) : Option (List α) := if l = [] then none else some l

/-- graphicalmodel_hdf5.hxx 107-112: the sizes of the sequences. -/
def totalSizes : List (Obj V) → Nat × Nat
  | [] => (0, 0)
  | o :: os => (o.sizes.1 + (totalSizes os).1, o.sizes.2 + (totalSizes os).2)

/-- Write the sequence `l` to the array `buf` from position `pos` on. -/
def writeAt {α : Type} (buf : List α) : Nat → List α → Option (List α)
  | _, [] => some buf
  | pos, x :: l =>
    match setAt buf pos x with
    | none => none
    | some buf' => writeAt buf' (pos + 1) l

/-- graphicalmodel_hdf5.hxx 117-124: serialise one function after the other. -/
def serializeLoop : List (Obj V) → Nat → Nat → List Nat → List V → Option (List Nat × List V)
  | [], _, _, ix, vs => some (ix, vs)
  | o :: os, i, j, ix, vs =>
    match o.serialize with
    | none => none
    | some (a, b) =>
      match writeAt ix i a, writeAt vs j b with
      | some ix', some vs' => serializeLoop os (i + o.sizes.1) (j + o.sizes.2) ix' vs'
      | _, _ => none

/-- graphicalmodel_hdf5.hxx 89-176 `SaveAndLoadFunctions::save`, for the classes from `IX` on. A second group with the same name cannot be created. -/
def saveFunctions : List Cls → List (List (Obj V)) → List (Nat × List Nat × List V) → Outcome Unit (List (Nat × List Nat × List V))
  | [], _, groups => .ok groups ()
  | _ :: _, [], _ => .ub
  | c :: cs, fs :: rest, groups =>
    if fs = [] then saveFunctions cs rest groups
    else if c.id ∈ groups.map Prod.fst then .throw ()
    else
      let n := totalSizes fs
      match serializeLoop fs 0 0 (List.replicate n.1 0) (List.replicate n.2 0) with
      | none => .ub
      | some (ix, vs) =>
        match saveVector ix, saveVector vs with
        | some ix', some vs' => saveFunctions cs rest (groups ++ [(c.id, ix', vs')])
        | _, _ => .ub

/-- graphicalmodel_hdf5.hxx 381-391: the ids and the numbers of functions. -/
def headerEntries : List Cls → List (List (Obj V)) → Option (List Nat)
  | [], _ => some []
  | _ :: _, [] => none
  | c :: cs, fs :: rest =>
    match headerEntries cs rest with
    | none => none
    | some l => some (c.id :: fs.length :: l)

/-- graphicalmodel_hdf5.hxx 415-424: the dataset "factors". -/
def factorEntries (vis : List Nat) : List FactorRec → Option (List Nat)
  | [] => some []
  | f :: fs =>
    match (List.range f.visSize).mapM (fun j => vis[f.visStart + j]?), factorEntries vis fs with
    | some vars, some l => some (f.functionIndex :: f.functionType :: f.visSize :: vars ++ l)
    | _, _ => none

/-- graphicalmodel_hdf5.hxx 325-429 `save`, for a model with the type list `types`; `valueType` is the number of the stored value type. -/
def save (types : List Cls) (valueType : Nat) (s : Store V) : Outcome Unit (File V) :=
  match headerEntries types s.functions, saveVector s.numLabels with
  | some entries, some states =>
    match saveFunctions types s.functions [] with
    | .ub => .ub
    | .throw _ => .throw ()
    | .ok groups _ =>
      match factorEntries s.factorsVis s.factors with
      | none => .ub
      | some l =>
        .ok ⟨[2, 0, s.numLabels.length, s.factors.length, types.length] ++ entries ++ [valueType], states, groups, if l = [] then none else some l⟩ ()
  | _, _ => .ub

/-- `std::vector::resize(n, x)` -/
def resizeTo {α : Type} (l : List α) (n : Nat) (x : α) : List α := l.take n ++ List.replicate (n - l.length) x

/-- graphicalmodel_hdf5.hxx 466-470: the ids and the numbers of functions in the header. -/
def readEntries (h : List Nat) : Nat → Nat → Option (List (Nat × Nat))
  | _, 0 => some []
  | i, k + 1 =>
    match h[5 + 2 * i]?, h[5 + 2 * i + 1]?, readEntries h (i + 1) k with
    | some a, some b, some l => some ((a, b) :: l)
    | _, _, _ => none

/-- graphicalmodel_hdf5.hxx 488-497: the first position of a registered id in the type list. -/
def findId (id : Nat) : List Cls → Nat → Option Nat
  | [], _ => none
  | c :: cs, j => if id = c.id then some j else findId id cs (j + 1)

/-- graphicalmodel_hdf5.hxx 486-504: the table from stored to own positions of the classes, and which own classes are used. A stored class that is not found
keeps the position 0; if it has functions, an exception is thrown (`.throw`). -/
def lookupLoop (types : List Cls) : List (Nat × Nat) → List Bool → Outcome Unit (List Nat × List Bool)
  | [], use => .ok ([], use) ()
  | (id, n) :: rest, use =>
    match findId id types 0 with
    | some j =>
      match setAt use j true with
      | none => .ub
      | some use' =>
        match lookupLoop types rest use' with
        | .ok (l, u) _ => .ok (j :: l, u) ()
        | .throw _ => .throw ()
        | .ub => .ub
    | none =>
      if n ≠ 0 then .throw ()
      else
        match lookupLoop types rest use with
        | .ok (l, u) _ => .ok (0 :: l, u) ()
        | .throw _ => .throw ()
        | .ub => .ub

/-- graphicalmodel_hdf5.hxx 194-201: the first stored class with own position `ix`. -/
def mappedIndex (ix : Nat) : List Nat → Nat → Option Nat
  | [], _ => none
  | j :: l, i => if j = ix then some i else mappedIndex ix l (i + 1)

/-- graphicalmodel_hdf5.hxx 277-284: deserialise `k` functions, from positions `i` and `j` of the sequences. -/
def deserializeLoop (c : Cls) (ix : List Nat) (vs : List V) : Nat → Nat → Nat → List Nat → Outcome (List Nat) (List (Obj V))
  | 0, _, _, parts => .ok [] parts
  | k + 1, i, j, parts =>
    match c.deserialize (ix.drop i) (vs.drop j) parts with
    | .ub => .ub
    | .throw p => .throw p
    | .ok o p =>
      match deserializeLoop c ix vs k (i + o.sizes.1) (j + o.sizes.2) p with
      | .ub => .ub
      | .throw p' => .throw p'
      | .ok os p' => .ok (o :: os) p'

/-- The group of a class in the file. -/
def openGroup (id : Nat) : List (Nat × List Nat × List V) → Option (List Nat × List V)
  | [] => none
  | (k, d) :: rest => if k = id then some d else openGroup id rest

/-- graphicalmodel_hdf5.hxx 190-285: the functions of the class `c` at position `pos`, which were `fs` before. -/
def loadClass (groups : List (Nat × List Nat × List V)) (nums : List (Nat × Nat)) (lookup : List Nat) (use : List Bool) (c : Cls) (pos : Nat)
    (fs : List (Obj V)) (parts : List Nat) : Outcome (List Nat) (List (Obj V)) :=
  match use[pos]? with
  | none => .ub
  | some false => .ok fs parts
  | some true =>
    match mappedIndex pos lookup 0 with
    | none => .throw parts
    | some m =>
      match nums[m]? with
      | none => .ub
      | some (_, n) =>
        if n ≠ 0 then
          match openGroup c.id groups with
          | none => .throw parts
          | some (ix, vs) => deserializeLoop c ix vs n 0 0 parts
        else .ok fs parts

/-- graphicalmodel_hdf5.hxx 179-291 `SaveAndLoadFunctions::load`, for the classes from position `pos` on; the functions of the model are replaced. Simplification:
after an exception the functions that were read before are lost (the state after it is not used). -/
def loadFunctions (groups : List (Nat × List Nat × List V)) (nums : List (Nat × Nat)) (lookup : List Nat) (use : List Bool) :
    List Cls → Nat → List (List (Obj V)) → List Nat → Outcome (List Nat) (List (List (Obj V)))
  | [], _, fss, parts => .ok fss parts
  | _ :: _, _, [], _ => .ub
  | c :: cs, pos, fs :: fss, parts =>
    match loadClass groups nums lookup use c pos fs parts with
    | .ub => .ub
    | .throw p => .throw p
    | .ok os p =>
      match loadFunctions groups nums lookup use cs (pos + 1) fss p with
      | .ok l p' => .ok (os :: l) p'
      | .throw p' => .throw p'
      | .ub => .ub

/-- graphicalmodel_hdf5.hxx 523-552: read `k` factors from position `p` of the dataset; `vis` and `order` are `factorsVis_` and `order_`. -/
def loadFactors (l : List Nat) (lookup : List Nat) : Nat → Nat → List Nat → Nat → Option (List FactorRec × List Nat × Nat)
  | 0, _, vis, order => some ([], vis, order)
  | k + 1, p, vis, order =>
    match l[p]?, l[p + 1]?, l[p + 2]? with
    | some fi, some ty, some n =>
      match lookup[ty]?, (List.range n).mapM (fun j => l[p + 3 + j]?) with
      | some ty', some vars =>
        match loadFactors l lookup k (p + 3 + n) (vis ++ vars) (max order n) with
        | none => none
        | some (fs, r) => some (⟨fi, ty', vis.length, n⟩ :: fs, r)
      | _, _ => none
    | _, _, _ => none

/-- graphicalmodel_hdf5.hxx 563-565: insert the factor `i` at its `j`-th variable. -/
def insertFactor (vis : List Nat) (f : FactorRec) (i : Nat) (adj : List (List Nat)) (j : Nat) : Option (List (List Nat)) :=
  match vis[f.visStart + j]? with
  | none => none
  | some v =>
    match adj[v]? with
    | none => none
    | some s => setAt adj v (RandomAccessSet.insert natLess s i).1

/-- graphicalmodel_hdf5.hxx 561-569: insert all factors at their variables. -/
def adjacencyLoop (vis : List Nat) : List FactorRec → Nat → List (List Nat) → Option (List (List Nat))
  | [], _, adj => some adj
  | f :: fs, i, adj =>
    match (List.range f.visSize).foldlM (insertFactor vis f i) adj with
    | none => none
    | some adj' => adjacencyLoop vis fs (i + 1) adj'

/-- graphicalmodel_hdf5.hxx 431-572 `load` into the model `s` with the type list `types`; the state is the model and the static tables of class Partitions. -/
def load (types : List Cls) (file : File V) (s : Store V) (parts : List Nat) : Outcome (Store V × List Nat) Unit :=
  let h := file.header
  if ¬ 5 < h.length then .throw (s, parts)
  else if h[0]? ≠ some 2 ∨ h[1]? ≠ some 0 then .throw (s, parts)
  else
    match h[3]?, h[4]? with
    | some nFactors, some nTypes =>
      let s1 := { s with factors := resizeTo s.factors nFactors ⟨0, 0, 0, 0⟩ }
      match readEntries h 0 nTypes with
      | none => .ub
      | some nums =>
        if h.length ≠ 5 + 2 * nums.length + 1 ∧ h.length ≠ 5 + 2 * nums.length then .throw (s1, parts)
        else
          match lookupLoop types nums (List.replicate types.length false) with
          | .ub => .ub
          | .throw _ => .throw (s1, parts)
          | .ok (lookup, use) _ =>
            let s2 := { s1 with numLabels := file.states }
            match loadFunctions file.groups nums lookup use types 0 s2.functions parts with
            | .ub => .ub
            | .throw p => .throw (s2, p)
            | .ok fss p =>
              let s3 := { s2 with functions := fss, factorsVis := [] }
              if s3.factors.length ≠ 0 then
                match file.factors with
                | none => .throw (s3, p)
                | some l =>
                  match loadFactors l lookup s3.factors.length 0 [] s3.order with
                  | none => .ub
                  | some (fs, vis, order) => finish { s3 with factors := fs, factorsVis := vis, order := order } p
              else finish s3 p
    | _, _ => .ub
where
  finish (s : Store V) (parts : List Nat) : Outcome (Store V × List Nat) Unit :=
    match adjacencyLoop s.factorsVis s.factors 0 (resizeTo s.adj s.numLabels.length []) with
    | none => .ub
    | some adj => .ok () ({ s with adj := adj }, parts)

end Hdf5
end OpenGM
