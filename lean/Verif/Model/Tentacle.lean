import Verif.Model.Manipulator
/-
Model of the start of `lockAndTentacelElimination` (include/opengm/graphicalmodel/graphicalmodel_manipulator.hxx 493-540): the checks, the degrees of the factors and variables and the list of leafs. What follows it (the search for tentacles
from the leafs, 543-861) is not modelled.
-/
namespace OpenGM
namespace Manipulator
variable {V : Type}

/-- graphicalmodel_manipulator.hxx 515-519: the number of free variables of a factor, from its variable `i`, `k` left. -/
def factorDegree (gm : GM V) (fv : List Bool) (f : FactorRec) : Nat → Nat → Nat → Option Nat
  | _, 0, d => some d
  | i, k + 1, d =>
    match gm.visAt f i with
    | none => none
    | some v =>
      match fv[v]? with
      | none => none
      | some true => factorDegree gm fv f (i + 1) k d
      | some false => factorDegree gm fv f (i + 1) k (d + 1)

/-- graphicalmodel_manipulator.hxx 521-525: increase the degrees of the free variables of a factor. -/
def bumpDegrees (gm : GM V) (fv : List Bool) (f : FactorRec) : Nat → Nat → List Nat → Option (List Nat)
  | _, 0, deg => some deg
  | i, k + 1, deg =>
    match gm.visAt f i with
    | none => none
    | some v =>
      match fv[v]? with
      | none => none
      | some true => bumpDegrees gm fv f (i + 1) k deg
      | some false =>
        match deg[v]? with
        | none => none
        | some d =>
          match setAt deg v (d + 1) with
          | none => none
          | some deg => bumpDegrees gm fv f (i + 1) k deg

/-- graphicalmodel_manipulator.hxx 513-527: the loop over the factors; the degrees of the variables. -/
def degreeLoop (gm : GM V) (fv : List Bool) : List FactorRec → List Nat → Option (List Nat)
  | [], deg => some deg
  | f :: fs, deg =>
    match factorDegree gm fv f 0 f.visSize 0 with
    | none => none
    | some d =>
      if d > 1 then
        match bumpDegrees gm fv f 0 f.visSize deg with
        | none => none
        | some deg => degreeLoop gm fv fs deg
      else degreeLoop gm fv fs deg

/-- graphicalmodel_manipulator.hxx 531-537: the loop that collects the leafs; `pushed` is pushed2Leafs, of which the size is the number of factors (530), `tent` is isInTentacle. -/
def leafLoop (fv : List Bool) (deg : List Nat) : List Nat → List Nat → List Bool → List Bool → Option (List Nat)
  | [], leafs, _, _ => some leafs
  | v :: vs, leafs, pushed, tent =>
    match deg[v]?, fv[v]? with
    | some d, some x =>
      if d ≤ 1 ∧ x = false then
        match setAt pushed v true, setAt tent v true with
        | some pushed, some tent => leafLoop fv deg vs (leafs ++ [v]) pushed tent
        | _, _ => none
      else leafLoop fv deg vs leafs pushed tent
    | _, _ => none

/-- What lockAndTentacelElimination does first. -/
inductive TentacleStart (V : Type) where
  /-- it returns at once (497) -/
  | returned
  /-- it throws (498) -/
  | thrown
  /-- it has found these leafs (540), the manipulator being locked -/
  | leafs (m : Manip V) (vs : List Nat)

/-- graphicalmodel_manipulator.hxx 497-540 -/
def tentacleStart (m : Manip V) : Option (TentacleStart V) :=
  if m.locked then some .returned
  else match m.mode with
    | .drop => some .thrown
    | .fix =>
      match degreeLoop m.gm m.fixVariable m.gm.factors (List.replicate m.gm.numberOfVariables 0) with
      | none => none
      | some deg =>
        match leafLoop m.fixVariable deg (List.range m.gm.numberOfVariables) [] (List.replicate m.gm.numberOfFactors false) (List.replicate m.gm.numberOfVariables false) with
        | none => none
        | some vs => some (.leafs { m with locked := true, tentacleFactor := resize m.tentacleFactor m.gm.numberOfFactors false } vs)

end Manipulator
end OpenGM
