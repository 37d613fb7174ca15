import Verif.Spec.Decomposition
import Verif.Model.Basic
/-
Model of include/opengm/graphicalmodel/decomposition/graphicalmodeldecomposition.hxx (class GraphicalModelDecomposition).

`none` is undefined behaviour (access out of range). Assertions are compiled out. The std::map from index vectors to lists of empty
sub-factors is an association list in which new keys are appended; the order of the keys is not modelled.
-/
namespace OpenGM
open Spec (SubVariable SubFactor)

/-- graphicalmodeldecomposition.hxx 70-78: data members. -/
structure Decomposition where
  numVars : Nat
  numFactors : Nat
  numModels : Nat
  numSubFactors : List Nat
  numSubVars : List Nat
  facLists : List (List SubFactor)
  varLists : List (List SubVariable)
  empty : List (List Nat × List SubFactor)

namespace Decomposition

/-- graphicalmodeldecomposition.hxx 116-141: constructors (the default constructor is `make 0 0 0`). -/
def make (n F M : Nat) : Decomposition :=
  ⟨n, F, M, List.replicate M 0, List.replicate M 0, List.replicate F [], List.replicate n [], []⟩

/-- graphicalmodeldecomposition.hxx 143-149 `addSubModel`. -/
def addSubModel (d : Decomposition) : Nat × Decomposition :=
  (d.numModels, { d with numSubFactors := d.numSubFactors ++ [0], numSubVars := d.numSubVars ++ [0], numModels := d.numModels + 1 })

/-- graphicalmodeldecomposition.hxx 151-168 `addSubFactor(subModel, factorId, subIndices)`. -/
def addSubFactor (d : Decomposition) (m f : Nat) (ids : List Nat) : Option (Nat × Decomposition) :=
  match d.facLists[f]?, d.numSubFactors[m]? with
  | some l, some k => some (k, { d with facLists := d.facLists.set f (l ++ [⟨m, some k, ids⟩]), numSubFactors := d.numSubFactors.set m (k + 1) })
  | _, _ => none

/-- `map[key].push_back(x)` with new keys appended. -/
def pushEmpty (key : List Nat) (x : SubFactor) : List (List Nat × List SubFactor) → List (List Nat × List SubFactor)
  | [] => [(key, [x])]
  | (k, l) :: rest => if k = key then (k, l ++ [x]) :: rest else (k, l) :: pushEmpty key x rest

/-- graphicalmodeldecomposition.hxx 170-186 `addSubFactor(subModel, indices, subIndices)`: a sub-factor without a factor. Its number is not stored. -/
def addEmptySubFactor (d : Decomposition) (m : Nat) (vars ids : List Nat) : Option (Nat × Decomposition) :=
  match d.numSubFactors[m]? with
  | some k => some (k, { d with empty := pushEmpty vars ⟨m, none, ids⟩ d.empty, numSubFactors := d.numSubFactors.set m (k + 1) })
  | none => none

/-- graphicalmodeldecomposition.hxx 188-198 `addSubVariable`. -/
def addSubVariable (d : Decomposition) (m v : Nat) : Option (Nat × Decomposition) :=
  match d.varLists[v]?, d.numSubVars[m]? with
  | some l, some k => some (k, { d with varLists := d.varLists.set v (l ++ [⟨m, k⟩]), numSubVars := d.numSubVars.set m (k + 1) })
  | _, _ => none

/-- The pairs (copy, variable) in the order in which the loops `for(varId) for(it = subVariableLists_[varId].begin(); ...)` visit them. -/
def visits (d : Decomposition) : List (SubVariable × Nat) :=
  d.varLists.zipIdx.flatMap (fun (l, v) => l.map (fun s => (s, v)))

/-- `table[m][k] = x` -/
def setEntry (table : List (List Nat)) (m k x : Nat) : Option (List (List Nat)) :=
  match table[m]? with
  | none => none
  | some row => if k < row.length then some (table.set m (row.set k x)) else none

/-- `table[m][k]` -/
def entry (table : List (List Nat)) (m k : Nat) : Option Nat :=
  match table[m]? with
  | none => none
  | some row => row[k]?

/-- graphicalmodeldecomposition.hxx 207-210, 285-288: one row of zeros for each submodel. -/
def zeroTable (d : Decomposition) : List (List Nat) := d.numSubVars.map (fun n => List.replicate n 0)

/-- graphicalmodeldecomposition.hxx 206-217: subVariable2realVariable. -/
def realTable (d : Decomposition) : Option (List (List Nat)) :=
  d.visits.foldlM (fun table (p : SubVariable × Nat) => setEntry table p.1.model p.1.id p.2) d.zeroTable

/-- graphicalmodeldecomposition.hxx 221-228: the body of the loop over the factors; `max()` is `none`. -/
def unaryStep (real : List (List Nat)) (unary : List (Option Nat)) (f : Nat) : List SubFactor → Option (List (Option Nat))
  | [] => some unary
  | s :: _ =>
    match s.indices with
    | [k] =>
      match entry real s.model k with
      | none => none
      | some v => if v < unary.length then some (unary.set v (some f)) else none
    | _ => some unary

/-- graphicalmodeldecomposition.hxx 219-228: realVariable2realUnaryFactors. -/
def unaryTable (d : Decomposition) (real : List (List Nat)) : Option (List (Option Nat)) :=
  d.facLists.zipIdx.foldlM (fun unary (p : List SubFactor × Nat) => unaryStep real unary p.2 p.1) (List.replicate d.numVars none)

/-- std::set::insert on the sorted list of elements. -/
def setInsert (x : Nat) : List Nat → List Nat
  | [] => [x]
  | y :: ys => if x < y then x :: y :: ys else if x = y then y :: ys else y :: setInsert x ys

/-- `required[m].insert(k)` -/
def requireInsert (req : List (List Nat)) (m k : Nat) : Option (List (List Nat)) :=
  match req[m]? with
  | none => none
  | some s => some (req.set m (setInsert k s))

/-- `required[m].erase(k)` -/
def requireErase (req : List (List Nat)) (m k : Nat) : Option (List (List Nat)) :=
  match req[m]? with
  | none => none
  | some s => some (req.set m (s.filter (· ≠ k)))

/-- graphicalmodeldecomposition.hxx 234-239: the copies of the variable. -/
def requiredOf (d : Decomposition) (l : List SubVariable) : Option (List (List Nat)) :=
  l.foldlM (fun req (s : SubVariable) => requireInsert req s.model s.id) (List.replicate d.numModels [])

/-- graphicalmodeldecomposition.hxx 243-247, 258-262: remove the copies that have a unary sub-factor in the list; `subIndices_[0]`. -/
def eraseIncluded (req : List (List Nat)) (l : List SubFactor) : Option (List (List Nat)) :=
  l.foldlM (fun req (s : SubFactor) =>
    match s.indices with
    | [] => none
    | k :: _ => requireErase req s.model k) req

/-- The pairs (submodel, copy) in the order of the loops graphicalmodeldecomposition.hxx 249-250, 264-265. -/
def missing (req : List (List Nat)) : List (Nat × Nat) :=
  req.zipIdx.flatMap (fun (s, m) => s.map (fun k => (m, k)))

/-- `map[key]`: inserts an empty list for a new key. -/
def touchEmpty (key : List Nat) (e : List (List Nat × List SubFactor)) : List (List Nat × List SubFactor) :=
  match e.lookup key with
  | some _ => e
  | none => e ++ [(key, [])]

/-- `map[key]` as a value. -/
def emptyAt (key : List Nat) (e : List (List Nat × List SubFactor)) : List SubFactor :=
  match e.lookup key with
  | some l => l
  | none => []

/-- graphicalmodeldecomposition.hxx 249-254: add the missing copies of the unary factor `f`. -/
def addMissing (d : Decomposition) (f : Nat) (todo : List (Nat × Nat)) : Option Decomposition :=
  todo.foldlM (fun d (p : Nat × Nat) => (d.addSubFactor p.1 f [p.2]).map Prod.snd) d

/-- graphicalmodeldecomposition.hxx 264-270: add the missing unary sub-factors without a factor. -/
def addMissingEmpty (d : Decomposition) (v : Nat) (todo : List (Nat × Nat)) : Option Decomposition :=
  todo.foldlM (fun d (p : Nat × Nat) => (d.addEmptySubFactor p.1 [v] [p.2]).map Prod.snd) d

/-- graphicalmodeldecomposition.hxx 232-273: the body of the loop over the variables. -/
def completeVar (unary : List (Option Nat)) (d : Decomposition) (v : Nat) : Option Decomposition :=
  match d.varLists[v]? with
  | none => none
  | some l =>
    if 1 < l.length then
      match d.requiredOf l with
      | none => none
      | some req =>
        match unary[v]? with
        | none => none
        | some (some f) =>
          match d.facLists[f]? with
          | none => none
          | some fl =>
            match eraseIncluded req fl with
            | none => none
            | some req' => d.addMissing f (missing req')
        | some none =>
          match eraseIncluded req (emptyAt [v] d.empty) with
          | none => none
          | some req' => { d with empty := touchEmpty [v] d.empty }.addMissingEmpty v (missing req')
    else some d

/-- graphicalmodeldecomposition.hxx 200-275 `complete`. -/
def complete (d : Decomposition) : Option Decomposition :=
  match d.realTable with
  | none => none
  | some real =>
    match d.unaryTable real with
    | none => none
    | some unary => (List.range d.numVars).foldlM (completeVar unary) d

/-- graphicalmodeldecomposition.hxx 292-297: the inner loop over the copies of one variable; `count` is varCount, `map` is subVarMap. -/
def reorderList : List SubVariable → List Nat → List (List Nat) → Option (List SubVariable × List Nat × List (List Nat))
  | [], count, map => some ([], count, map)
  | s :: rest, count, map =>
    match count[s.model]? with
    | none => none
    | some c =>
      match setEntry map s.model s.id c with
      | none => none
      | some map' =>
        match reorderList rest (count.set s.model (c + 1)) map' with
        | none => none
        | some (rest', count', map'') => some (⟨s.model, c⟩ :: rest', count', map'')

/-- graphicalmodeldecomposition.hxx 291-298: the loop over the variables. -/
def reorderLists : List (List SubVariable) → List Nat → List (List Nat) → Option (List (List SubVariable) × List Nat × List (List Nat))
  | [], count, map => some ([], count, map)
  | l :: rest, count, map =>
    match reorderList l count map with
    | none => none
    | some (l', count', map') =>
      match reorderLists rest count' map' with
      | none => none
      | some (rest', count'', map'') => some (l' :: rest', count'', map'')

/-- graphicalmodeldecomposition.hxx 302-306, 313-317: translate the indices of a sub-factor. -/
def reorderFactor (map : List (List Nat)) (s : SubFactor) : Option SubFactor :=
  (s.indices.mapM (fun k => entry map s.model k)).map (fun ids => { s with indices := ids })

/-- graphicalmodeldecomposition.hxx 277-323 `reorder`. -/
def reorder (d : Decomposition) : Option Decomposition :=
  match reorderLists d.varLists (List.replicate d.numModels 0) d.zeroTable with
  | none => none
  | some (vl, _, map) =>
    match d.facLists.mapM (fun l => l.mapM (reorderFactor map)) with
    | none => none
    | some fl =>
      match d.empty.mapM (fun (p : List Nat × List SubFactor) => (p.2.mapM (reorderFactor map)).map (fun l => (p.1, l))) with
      | none => none
      | some e => some { d with varLists := vl, facLists := fl, empty := e }

/-- graphicalmodeldecomposition.hxx 335-351: the loop that the assertions are in. It does nothing, but it reads `subVariableLists_[v]` for the
variables of every copied factor and, for every copy of the `j`-th variable in the same submodel, `subIndices_[j]`. -/
def readsOk (d : Decomposition) (scopes : List (List Nat)) : Bool :=
  scopes.zipIdx.all (fun (vars, i) =>
    match d.facLists[i]? with
    | none => false
    | some l => l.all (fun s => vars.zipIdx.all (fun (v, j) =>
        match d.varLists[v]? with
        | none => false
        | some vl => vl.all (fun t => t.model ≠ s.model || decide (j < s.indices.length)))))

/-- graphicalmodeldecomposition.hxx 360-364: the loop over the variables of the model; `none` if a list is missing. -/
def checkVars (lists : List (List SubVariable)) : List Nat → Bool → Option Bool
  | [], ret => some ret
  | i :: is, ret =>
    match lists[i]? with
    | none => none
    | some l => checkVars lists is (if l.length = 0 then false else ret)

/-- graphicalmodeldecomposition.hxx 369-387: the number of variables of the copies of one factor. -/
def checkCopies (order : Nat) : List SubFactor → Bool → Bool
  | [], ret => ret
  | s :: ss, ret => checkCopies order ss (if s.indices.length ≠ order then false else ret)

/-- graphicalmodeldecomposition.hxx 365-388: the loop over the factors of the model (given by their orders, with their ids). -/
def checkFactors (lists : List (List SubFactor)) : List (Nat × Nat) → Bool → Option Bool
  | [], ret => some ret
  | (order, i) :: is, ret =>
    match lists[i]? with
    | none => none
    | some l => checkFactors lists is (checkCopies order l (if l.length = 0 then false else ret))

/-- graphicalmodeldecomposition.hxx 325-390 `isValid(gm)` for a model with `n` variables and factors with the given variables. -/
def isValid (d : Decomposition) (n : Nat) (scopes : List (List Nat)) : Option Bool :=
  if d.readsOk scopes then
    let ret := true
    let ret := if d.varLists.length ≠ n then false else ret
    let ret := if d.facLists.length ≠ scopes.length then false else ret
    match checkVars d.varLists (List.range n) ret with
    | none => none
    | some ret => checkFactors d.facLists ((scopes.map List.length).zipIdx) ret
  else none

end Decomposition
end OpenGM
