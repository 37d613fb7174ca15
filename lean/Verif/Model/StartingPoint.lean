import Verif.Model.GraphicalModel
import Verif.Model.Partition
/-
Model of include/opengm/inference/cgc/generate_starting_point.hxx: a partition of the variables by a threshold.
-/
namespace OpenGM
namespace StartingPoint
variable {V F : Type}

/-- generate_starting_point.hxx 32-40: the loop over the factors, from the factor `fi` on. -/
def mergeLoop [LT F] [DecidableLT F] (gm : GM V) (lambdas : List F) (threshold : F) : List FactorRec → Nat → Partition → Outcome Unit Partition
  | [], _, ufd => .ok ufd ()
  | f :: fs, fi, ufd =>
    if f.visSize = 2 then
      match gm.visAt f 0, gm.visAt f 1, lambdas[fi]? with
      | some vi0, some vi1, some l =>
        if l > threshold then
          match ufd.merge vi0 vi1 with
          | none => .ub
          | some ufd' => mergeLoop gm lambdas threshold fs (fi + 1) ufd'
        else mergeLoop gm lambdas threshold fs (fi + 1) ufd
      | _, _, _ => .ub
    else .throw ()

/-- generate_starting_point.hxx 46-50: the labels of the variables; `find` compresses paths, and `operator[]` of a map gives 0 for a missing key. -/
def labelLoop (rl : List (Nat × Nat)) : List Nat → Partition → Option (List Nat)
  | [], _ => some []
  | vi :: vis, ufd =>
    match ufd.find vi with
    | none => none
    | some (r, ufd') =>
      match labelLoop rl vis ufd' with
      | none => none
      | some ls => some ((rl.lookup r).getD 0 :: ls)

/-- generate_starting_point.hxx 16-52 `startFromThreshold`: the result argument afterwards. -/
def startFromThreshold [LT F] [DecidableLT F] (gm : GM V) (lambdas : List F) (threshold : F) : Outcome Unit (List Nat) :=
  match mergeLoop gm lambdas threshold gm.factors 0 (Partition.ofSize gm.numberOfVariables) with
  | .ub => .ub
  | .throw _ => .throw ()
  | .ok ufd _ =>
    match ufd.representativeLabeling with
    | none => .ub
    | some rl =>
      match labelLoop rl (List.range gm.numberOfVariables) ufd with
      | none => .ub
      | some x => .ok x ()

end StartingPoint
end OpenGM
