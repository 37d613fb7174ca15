import Verif.Model.GraphicalModel
import Verif.Spec.Build
/-
A client of the class GraphicalModel: it keeps the function identifiers the model returns (in the order of the
calls) and passes them to addFactor.
-/
namespace OpenGM
open Spec

/-- A model object together with the identifiers returned so far. -/
structure Client (V : Type) where
  gm : GM V
  ids : List FunctionIdentifier

/-- One call; the functions called are those of Model/GraphicalModel. -/
def Client.step {V : Type} (eqv : Fn V → Fn V → Bool) (c : Client V) : BuildOp V → Outcome (Client V) Unit
  | .addVariable n => .ok () { c with gm := (c.gm.addVariable n).2 }
  | .addFunction ty f =>
    match c.gm.addFunction ty f with
    | none => .ub
    | some (id, gm') => .ok () ⟨gm', c.ids ++ [id]⟩
  | .addSharedFunction ty f =>
    match c.gm.addSharedFunction eqv ty f with
    | none => .ub
    | some (id, gm') => .ok () ⟨gm', c.ids ++ [id]⟩
  | .addFactor h vars =>
    match c.ids[h]? with
    | none => .ub
    | some id =>
      match c.gm.addFactor id vars with
      | .ok _ gm' => .ok () { c with gm := gm' }
      | .throw gm' => .throw { c with gm := gm' }
      | .ub => .ub

/-- A whole history; stops at the first exception or undefined behaviour. -/
def Client.run {V : Type} (eqv : Fn V → Fn V → Bool) : Client V → List (BuildOp V) → Outcome (Client V) Unit
  | c, [] => .ok () c
  | c, op :: ops =>
    match c.step eqv op with
    | .ok _ c' => Client.run eqv c' ops
    | .throw c' => .throw c'
    | .ub => .ub

/-- A client with a freshly constructed model. -/
def Client.init {V : Type} (nTypes : Nat) : Client V := ⟨GM.empty nTypes, []⟩

end OpenGM
