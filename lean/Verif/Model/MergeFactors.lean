import Verif.Model.GraphicalModel
/-
Model of `mergeFactors` in include/opengm/inference/auxiliary/submodel/submodel_builder.hxx: the factors of a model that have the same variables become one factor of
another model.

Simplifications: the two `std::map` objects are lists of pairs whose first matching entry counts. An array function is its shape and its table. The function type of the
output model is the first (and only) one of its type list.
-/
namespace OpenGM
namespace MergeFactors
variable {V : Type}

/-- submodel_builder.hxx 37-39: the maps for factors of one and of two variables, and the output model. -/
structure State (V : Type) where
  out : GM V
  first : List (Nat × FunctionIdentifier)
  second : List (Nat × FunctionIdentifier)

/-- submodel_builder.hxx 57-60: the key of a factor with the variables `vs`, in a model with `n` variables. `M` is the number of values of the index type; the key has 64 bits. -/
def key (M n : Nat) (vs : List Nat) : Option Nat :=
  match vs with
  | [v] => some (v % 2 ^ 64)
  | [v, w] => some ((v + w * n % M) % 2 ^ 64)
  | _ => none

/-- submodel_builder.hxx 66-67, 76-77: the values of a factor are copied into an array (graphicalmodel_factor.hxx `copyValues`). -/
def copyFactor (gm : GM V) (f : FactorRec) : Option (Fn V) := gm.getFunction ⟨f.functionIndex, f.functionType⟩

/-- submodel_builder.hxx 79 `function+=buffer` (marray.hxx `operator+=`); the shapes must be the same. -/
def addArrays [Add V] (a b : Fn V) : Option (Fn V) := if a.shape = b.shape then some ⟨a.shape, fun c => a.table c + b.table c⟩ else none

/-- The function of the model behind the reference of submodel_builder.hxx 75 is replaced. -/
def setFunction (gm : GM V) (fid : FunctionIdentifier) (fn : Fn V) : GM V :=
  { gm with functions := gm.functions.modify fid.functionType (fun tbl => tbl.set fid.functionIndex fn) }

/-- submodel_builder.hxx 65-71: a factor with new variables. -/
def addNew (s : State V) (vs : List Nat) (k : Nat) (fn : Fn V) : Outcome Unit (State V) :=
  match s.out.addFunction 0 fn with
  | none => .ub
  | some (fid, out1) =>
    match out1.addFactor fid vs with
    | .ub => .ub
    | .throw _ => .throw ()
    | .ok _ out2 => if vs.length = 1 then .ok { s with out := out2, first := (k, fid) :: s.first } () else .ok { s with out := out2, second := (k, fid) :: s.second } ()

/-- submodel_builder.hxx 73-80: a factor whose variables are known. -/
def addKnown [Add V] (s : State V) (fid : FunctionIdentifier) (buffer : Fn V) : Outcome Unit (State V) :=
  match s.out.getFunction fid with
  | none => .ub
  | some fn =>
    match addArrays fn buffer with
    | none => .ub
    | some sum => .ok { s with out := setFunction s.out fid sum } ()

/-- submodel_builder.hxx 44-86: one factor. -/
def step [Add V] (M : Nat) (gm : GM V) (s : State V) (f : FactorRec) : Outcome Unit (State V) :=
  if f.visSize ≤ 2 then
    if f.visSize = 1 ∨ f.visSize = 2 then
      match key M gm.numberOfVariables (gm.scope f), copyFactor gm f with
      | some k, some fn =>
        match (if f.visSize = 1 then s.first else s.second).lookup k with
        | none => addNew s (gm.scope f) k fn
        | some fid => addKnown s fid fn
      | _, _ => .ub
    else .ok s ()
  else .throw ()

/-- submodel_builder.hxx 43-88: the loop over the factors. -/
def loop [Add V] (M : Nat) (gm : GM V) : List FactorRec → State V → Outcome Unit (State V)
  | [], s => .ok s ()
  | f :: fs, s =>
    match step M gm s f with
    | .ub => .ub
    | .throw _ => .throw ()
    | .ok s' _ => loop M gm fs s'

/-- submodel_builder.hxx 25-102 `mergeFactors(gm, gmOut)`. -/
def mergeFactors [Add V] (M : Nat) (gm out : GM V) : Outcome Unit (GM V) :=
  match loop M gm gm.factors ⟨out, [], []⟩ with
  | .ub => .ub
  | .throw _ => .throw ()
  | .ok s _ => .ok s.out ()

end MergeFactors
end OpenGM
