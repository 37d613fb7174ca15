import Verif.Model.FactorGraph
import Verif.Model.Partition
/-
Model of FactorGraph::isConnected (factorgraph.hxx 390-424).
-/
namespace OpenGM.FG

/-- factorgraph.hxx 408-410: `merge(*(iter - 1), *iter)` for `iter` from the second variable on; `prev` is `*(iter - 1)`. -/
def mergeScope (P : Partition) (prev : Nat) : List Nat → Option Partition
  | [] => some P
  | v :: vs =>
    match P.merge prev v with
    | none => none
    | some P' => mergeScope P' v vs

/-- factorgraph.hxx 402-411: the loop over all factors. For a factor without variables `variablesBegin + 1` is past
`variablesEnd` and the inner loop runs out of bounds: undefined. -/
def mergeScopes (P : Partition) : List (List Nat) → Option Partition
  | [] => some P
  | [] :: _ => none
  | (v :: vs) :: rest =>
    match mergeScope P v vs with
    | none => none
    | some P' => mergeScopes P' rest

/-- factorgraph.hxx 392-424 `isConnected(representatives)`: the result and the vector assigned to `representatives`
(`none` if the parameter is left alone). -/
def isConnected (g : FG) : Option (Bool × Option (List Nat)) :=
  if g.numVars = 0 then some (false, none)
  else
    match mergeScopes (Partition.ofSize g.numVars) g.scopes with
    | none => none
    | some P =>
      -- `representatives` is a vector of numberOfSets() entries; writing more is undefined
      if P.representatives.length ≤ P.numberOfSets then
        some (decide (P.numberOfSets = 1),
          some (P.representatives ++ List.replicate (P.numberOfSets - P.representatives.length) 0))
      else none

end OpenGM.FG
