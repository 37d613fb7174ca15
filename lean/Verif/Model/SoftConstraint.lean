import Verif.Model.Functions
import Verif.Model.Learnable
import Verif.Model.Utilities
/-
Soft constraint functions: LabelCostFunction and SumConstraintFunction.
Modelled: /repo/include/opengm/functions/soft_constraint_functions/label_cost_function.hxx, sum_constraint_function.hxx (constructors, operator(), shape,
dimension, size, serialization). Labels, indices and sizes are natural numbers; `size_` is computed with the machine arithmetic of the code (an `int`
accumulator in the constructors that take a shape, a 64 bit power in the others). The shape iterator has value type `size_t`. The states are a list; reading
behind its end, or behind the end of a vector, is `none`. The default constructors are not modelled. Values are a commutative ring with an order.
-/
namespace OpenGM
namespace SoftConstraint
open Learnable

/-- Conversion of an unsigned number to a 32 bit `int`. -/
def toInt (x : Nat) : Int := if x % 2 ^ 32 < 2 ^ 31 then ((x % 2 ^ 32 : Nat) : Int) else ((x % 2 ^ 32 : Nat) : Int) - 2 ^ 32

/-- Conversion of an `int` to `size_t`. -/
def ofInt (i : Int) : Nat := (i % 2 ^ 64).toNat

/-- label_cost_function.hxx 297, 309, sum_constraint_function.hxx 316: `std::accumulate(shapeBegin, shapeEnd, 1, std::multiplies<size_t>())`: the
accumulator has the type of the literal `1`. -/
def accumulateSize (shape : List Nat) : Nat := ofInt (shape.foldl (fun acc s => toInt (ofInt acc * s % 2 ^ 64)) 1)

/-- `std::equal(shape_.begin() + 1, shape_.end(), shape_.begin())`, and true without variables. -/
def allEqual : List Nat → Bool
  | [] => true
  | [_] => true
  | a :: b :: l => b == a && allEqual (b :: l)

/-- `*std::max_element(shape_.begin(), shape_.end())`, and zero without variables. -/
def maxElement : List Nat → Nat
  | [] => 0
  | a :: l => l.foldl (fun m x => if m < x then x else m) a

/-- label_cost_function.hxx 254-276, sum_constraint_function.hxx: the members about the shape. -/
structure Base where
  shape : List Nat
  numVariables : Nat
  maxNumLabels : Nat
  same : Bool
  size : Nat
  deriving DecidableEq, Repr

/-- label_cost_function.hxx 294-297, 306-309, sum_constraint_function.hxx 312-316 -/
def Base.ofShape (shape : List Nat) : Base :=
  { shape := shape, numVariables := shape.length, maxNumLabels := maxElement shape, same := allEqual shape, size := accumulateSize shape }

/-- label_cost_function.hxx 317-319, 327-329, sum_constraint_function.hxx 336-339 -/
def Base.ofCounts (numVariables numLabels : Nat) : Option Base :=
  (Util.unsignedIntegerPow 64 numLabels numVariables).map
    (fun size => { shape := [], numVariables := numVariables, maxNumLabels := numLabels, same := true, size := size })

/-- label_cost_function.hxx 370-378, sum_constraint_function.hxx `shape(i)`. -/
def Base.shapeAt (b : Base) (i : Nat) : Option Nat := if b.same then some b.maxNumLabels else b.shape[i]?

/-- `shape_[i]` for `i = 0, ..., n - 1`. -/
def readAll (l : List Nat) : Nat → Option (List Nat)
  | 0 => some []
  | n + 1 => match readAll l n, l[n]? with
    | some r, some x => some (r ++ [x])
    | _, _ => none

/-! ### LabelCostFunction -/

/-- label_cost_function.hxx 254-279 -/
structure LabelCost (V : Type) where
  base : Base
  costs : List V
  useSingle : Bool
  singleLabel : Nat
  singleCost : V

section
variable {V : Type} [CommRing V]

namespace LabelCost

/-- label_cost_function.hxx 291-301 -/
def ofShapeCosts (shape : List Nat) (costs : List V) : LabelCost V :=
  { base := Base.ofShape shape, costs := costs, useSingle := false, singleLabel := 0, singleCost := 0 }

/-- label_cost_function.hxx 303-312 -/
def ofShapeSingle (shape : List Nat) (label : Nat) (cost : V) : LabelCost V :=
  { base := Base.ofShape shape, costs := [], useSingle := true, singleLabel := label, singleCost := cost }

/-- label_cost_function.hxx 314-323 -/
def ofCountsCosts (n k : Nat) (costs : List V) : Option (LabelCost V) :=
  (Base.ofCounts n k).map (fun b => { base := b, costs := costs, useSingle := false, singleLabel := 0, singleCost := 0 })

/-- label_cost_function.hxx 325-332 -/
def ofCountsSingle (n k label : Nat) (cost : V) : Option (LabelCost V) :=
  (Base.ofCounts n k).map (fun b => { base := b, costs := [], useSingle := true, singleLabel := label, singleCost := cost })

/-- label_cost_function.hxx 343: `std::find(statesBegin, statesBegin + n, label) != statesBegin + n`. -/
def finds (label : Nat) : Nat → List Nat → Option Bool
  | 0, _ => some false
  | _ + 1, [] => none
  | n + 1, s :: ss => if s = label then some true else finds label n ss

/-- label_cost_function.hxx 353-366: the loop; `used`, `found` and `result` are the variables of lines 349-351. -/
def loop (maxNumLabels : Nat) (costs : List V) : Nat → List Nat → List Bool → Nat → V → Option V
  | 0, _, _, _, result => some result
  | _ + 1, [], _, _, _ => none
  | n + 1, s :: ss, used, found, result =>
    match used[s]? with
    | none => none
    | some true => if found = maxNumLabels then some result else loop maxNumLabels costs n ss used found result
    | some false =>
      match costs[s]? with
      | none => none
      | some c =>
        if found + 1 = maxNumLabels then some (result + c)
        else loop maxNumLabels costs n ss (used.set s true) (found + 1) (result + c)

/-- label_cost_function.hxx 339-368 `operator()`. -/
def eval (f : LabelCost V) (states : List Nat) : Option V :=
  if f.useSingle then
    match finds f.singleLabel f.base.numVariables states with
    | none => none
    | some true => some f.singleCost
    | some false => some 0
  else loop f.base.maxNumLabels f.costs f.base.numVariables states (List.replicate f.base.maxNumLabels false) 0 0

/-- label_cost_function.hxx 391-410 `indexSequenceSize`, `valueSequenceSize`. -/
def sizes (f : LabelCost V) : Nat × Nat :=
  (1 + 1 + (if f.base.same then 1 else f.base.numVariables) + 1 + 1, if f.useSingle then 1 else f.costs.length)

/-- label_cost_function.hxx 412-454 `serialize`. -/
def serialize (f : LabelCost V) : Option (List Nat × List V) :=
  match (if f.base.same then some [f.base.maxNumLabels] else readAll f.base.shape f.base.numVariables) with
  | none => none
  | some shape => some
      ([f.base.numVariables, if f.base.same then 1 else 0] ++ shape ++
        [if f.useSingle then 1 else 0, if f.useSingle then f.singleLabel else f.costs.length],
       if f.useSingle then [f.singleCost] else f.costs)

/-- label_cost_function.hxx 456-496 `deserialize`. The iterator of line 481 is not used for a single cost. -/
def deserialize (ix : List Nat) (vs : List V) : Option (LabelCost V) :=
  match ix with
  | dimension :: same :: ix =>
    match readN (if same = 1 then 1 else dimension) ix with
    | some (shape, single :: costsSize :: _) =>
      if same = 1 then
        match shape[0]? with
        | none => none
        | some k =>
          if single = 1 then
            match vs[0]? with
            | none => none
            | some c => ofCountsSingle dimension k costsSize c
          else
            match readN costsSize vs with
            | none => none
            | some (costs, _) => ofCountsCosts dimension k costs
      else if single = 1 then
        match vs[0]? with
        | none => none
        | some c => some (ofShapeSingle shape costsSize c)
      else
        match readN costsSize vs with
        | none => none
        | some (costs, _) => some (ofShapeCosts shape costs)
    | _ => none
  | _ => none

end LabelCost

/-! ### SumConstraintFunction -/

/-- sum_constraint_function.hxx: the members. -/
structure SumConstraint (V : Type) where
  base : Base
  coefficients : List V
  share : Bool
  offsets : List Nat
  lambda : V
  bound : V

namespace SumConstraint

/-- sum_constraint_function.hxx 325-329, 348-352: the offsets of the coefficients of the variables. -/
def offsetsOf : Nat → List Nat → List Nat
  | _, [] => []
  | off, s :: shape => off :: offsetsOf (off + s) shape

/-- sum_constraint_function.hxx 309-331 -/
def ofShape (shape : List Nat) (coefficients : List V) (share : Bool) (lambda bound : V) : SumConstraint V :=
  { base := Base.ofShape shape, coefficients := coefficients, share := share, offsets := if share then [] else offsetsOf 0 shape,
    lambda := lambda, bound := bound }

/-- sum_constraint_function.hxx 333-355 -/
def ofCounts (n k : Nat) (coefficients : List V) (share : Bool) (lambda bound : V) : Option (SumConstraint V) :=
  (Base.ofCounts n k).map (fun b =>
    { base := b, coefficients := coefficients, share := share,
      offsets := if share then [] else offsetsOf 0 (List.replicate n k), lambda := lambda, bound := bound })

/-- sum_constraint_function.hxx 366-368: coefficients of all variables. -/
def sharedLoop (coefficients : List V) : Nat → List Nat → V → Option V
  | 0, _, r => some r
  | _ + 1, [], _ => none
  | n + 1, s :: ss, r =>
    match coefficients[s]? with
    | none => none
    | some c => sharedLoop coefficients n ss (r + c)

/-- sum_constraint_function.hxx 370-372: own coefficients, for `i, i + 1, ...`. -/
def ownLoop (coefficients : List V) (offsets : List Nat) : Nat → Nat → List Nat → V → Option V
  | 0, _, _, r => some r
  | _ + 1, _, [], _ => none
  | n + 1, i, s :: ss, r =>
    match offsets[i]? with
    | none => none
    | some o =>
      match coefficients[o + s]? with
      | none => none
      | some c => ownLoop coefficients offsets n (i + 1) ss (r + c)

/-- sum_constraint_function.hxx 362-376 `operator()`. -/
def eval [LinearOrder V] (f : SumConstraint V) (states : List Nat) : Option V :=
  match (if f.share then sharedLoop f.coefficients f.base.numVariables states (-f.bound)
    else ownLoop f.coefficients f.offsets f.base.numVariables 0 states (-f.bound)) with
  | none => none
  | some r => some ((if r < 0 then -r else r) * f.lambda)

/-- sum_constraint_function.hxx 400-421 -/
def sizes (f : SumConstraint V) : Nat × Nat :=
  (1 + 1 + (if f.base.same then 1 else f.base.shape.length) + 1 + 1, f.coefficients.length + 1 + 1)

/-- sum_constraint_function.hxx 423-461 `serialize`. -/
def serialize (f : SumConstraint V) : List Nat × List V :=
  ([if f.base.same then 1 else 0, f.base.numVariables] ++ (if f.base.same then [f.base.maxNumLabels] else f.base.shape) ++
    [if f.share then 1 else 0, f.coefficients.length],
   f.coefficients ++ [f.lambda, f.bound])

/-- sum_constraint_function.hxx 463-501 `deserialize`. -/
def deserialize (ix : List Nat) (vs : List V) : Option (SumConstraint V) :=
  match ix with
  | same :: numVariables :: ix =>
    match readN (if same ≠ 0 then 1 else numVariables) ix with
    | some (shape, share :: numCoefficients :: _) =>
      match readN numCoefficients vs with
      | some (coefficients, lambda :: bound :: _) =>
        if same ≠ 0 then
          match shape[0]? with
          | none => none
          | some k => ofCounts numVariables k coefficients (share != 0) lambda bound
        else some (ofShape shape coefficients (share != 0) lambda bound)
      | _ => none
    | _ => none
  | _ => none

end SumConstraint
end
end SoftConstraint
end OpenGM
