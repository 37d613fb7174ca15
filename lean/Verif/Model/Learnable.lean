import Verif.Model.FunctionStorage
import Verif.Model.GraphicalModel
/-
Model of functions with weights: graphicalmodel/weights.hxx (Weights, WeightRegularizer, WeightConstraints), functions/learnable (LPotts, LUnary,
LWeightedSumOfFunctions) and functions/unary_loss_function.hxx.

A function holds a pointer to a Weights object. The objects in memory are a list of weight vectors, a pointer is a position in it, `none` is a null or
uninitialised pointer. Reading through it, or out of the range of an array, is `none`. Values form a commutative ring (no rounding).
-/
namespace OpenGM
namespace Learnable
open Marray Functions

variable {V : Type}

/-- The Weights objects in memory (weights.hxx 53-82: a vector of values each). -/
abbrev Mem (V : Type) := List (List V)

/-- weights.hxx 66-69 `getWeight`, through a pointer. -/
def getWeight (mem : Mem V) (p : Option Nat) (pi : Nat) : Option V :=
  match p with
  | none => none
  | some k =>
    match mem[k]? with
    | none => none
    | some w => w[pi]?

/-- weights.hxx 71-74 `setWeight` on the object at position `k`. -/
def setWeight (mem : Mem V) (k pi : Nat) (value : V) : Option (Mem V) :=
  match mem[k]? with
  | none => none
  | some w => (setAt w pi value).map (fun w => mem.set k w)

/-- The loop `val += getWeight(weightIDs_[i]) * gradient(i)` over the numbers `i` (lpotts.hxx 134-137, lweightedsum_of_functions.hxx 115-118). -/
def sumLoop [CommRing V] (weight : Nat → Option V) (gradient : Nat → Option V) : List Nat → V → Option V
  | [], val => some val
  | i :: rest, val =>
    match weight i, gradient i with
    | some w, some g => sumLoop weight gradient rest (val + w * g)
    | _, _ => none

/-- The weight with number `weightIDs_[i]`. -/
def weightAt (mem : Mem V) (p : Option Nat) (ids : List Nat) (i : Nat) : Option V :=
  match ids[i]? with
  | none => none
  | some wi => getWeight mem p wi

/-- Read `n` entries of a sequence; the entries and the rest. -/
def readN {α : Type} : Nat → List α → Option (List α × List α)
  | 0, l => some ([], l)
  | _ + 1, [] => none
  | n + 1, x :: l => (readN n l).map (fun r => (x :: r.1, r.2))

/-! ### LPotts -/

/-- lpotts.hxx 66-69 -/
structure LPotts (V : Type) where
  weights : Option Nat
  numLabels : Nat
  weightIDs : List Nat
  feat : List V

namespace LPotts

/-- lpotts.hxx 76-88 -/
def make (weights : Nat) (numLabels : Nat) (weightIDs : List Nat) (feat : List V) : LPotts V := ⟨some weights, numLabels, weightIDs, feat⟩

/-- lpotts.hxx 90-101: the pointer is not initialised. -/
def makeUnbound (numLabels : Nat) (weightIDs : List Nat) (feat : List V) : LPotts V := ⟨none, numLabels, weightIDs, feat⟩

/-- lpotts.hxx 103-110 -/
def default : LPotts V := ⟨none, 0, [], []⟩

/-- lpotts.hxx 53-54 -/
def setWeights (f : LPotts V) (k : Nat) : LPotts V := { f with weights := some k }

/-- lpotts.hxx 55-56 -/
def numberOfWeights (f : LPotts V) : Nat := f.weightIDs.length

/-- lpotts.hxx 57-58 -/
def weightIndex (f : LPotts V) (weightNumber : Nat) : Option Nat := f.weightIDs[weightNumber]?

/-- lpotts.hxx 112-125 -/
def weightGradient [CommRing V] (f : LPotts V) (weightNumber : Nat) (c : List Nat) : Option V :=
  match c[0]?, c[1]? with
  | some a, some b => if a ≠ b then f.feat[weightNumber]? else some 0
  | _, _ => none

/-- lpotts.hxx 127-139 `operator()` -/
def eval [CommRing V] (mem : Mem V) (f : LPotts V) (c : List Nat) : Option V :=
  sumLoop (weightAt mem f.weights f.weightIDs) (fun i => f.weightGradient i c) (List.range f.numberOfWeights) 0

/-- lpotts.hxx 142-161 `shape`, `dimension`, `size` -/
def toFun [CommRing V] (mem : Mem V) (f : LPotts V) : Fun V := ⟨[f.numLabels, f.numLabels], f.numLabels * f.numLabels, f.eval mem⟩

/-- lpotts.hxx 188-204 -/
def sizes (f : LPotts V) : Nat × Nat := (2 + f.weightIDs.length, f.feat.length)

/-- lpotts.hxx 206-227 -/
def serialize (f : LPotts V) : List Nat × List V := (f.numLabels :: f.feat.length :: f.weightIDs, f.feat)

/-- lpotts.hxx 229-250: everything but the pointer is overwritten. -/
def deserialize (ix : List Nat) (vs : List V) (dst : LPotts V) : Option (LPotts V) :=
  match ix with
  | numLabels :: numW :: ix =>
    match readN numW ix, readN numW vs with
    | some (ids, _), some (feat, _) => some { dst with numLabels := numLabels, weightIDs := ids, feat := feat }
    | _, _ => none
  | _ => none

end LPotts

/-! ### LWeightedSumOfFunctions -/

/-- lweightedsum_of_functions.hxx 58-61 -/
structure LSum (V : Type) where
  weights : Option Nat
  shape : List Nat
  weightIDs : List Nat
  feat : List (Arr V)

namespace LSum

/-- lweightedsum_of_functions.hxx 68-85 -/
def make (shape : List Nat) (weights : Nat) (weightIDs : List Nat) (feat : List (Arr V)) : LSum V := ⟨some weights, shape, weightIDs, feat⟩

/-- lweightedsum_of_functions.hxx 87-93 -/
def default : LSum V := ⟨none, [], [], []⟩

/-- lweightedsum_of_functions.hxx 49-50 -/
def setWeights (f : LSum V) (k : Nat) : LSum V := { f with weights := some k }

/-- lweightedsum_of_functions.hxx 51-52 -/
def numberOfWeights (f : LSum V) : Nat := f.weightIDs.length

/-- lweightedsum_of_functions.hxx 53-54 -/
def weightIndex (f : LSum V) (weightNumber : Nat) : Option Nat := f.weightIDs[weightNumber]?

/-- lweightedsum_of_functions.hxx 96-106 -/
def weightGradient (f : LSum V) (weightNumber : Nat) (c : List Nat) : Option V :=
  match f.feat[weightNumber]? with
  | none => none
  | some a => a.get c

/-- lweightedsum_of_functions.hxx 108-120 `operator()` -/
def eval [CommRing V] (mem : Mem V) (f : LSum V) (c : List Nat) : Option V :=
  sumLoop (weightAt mem f.weights f.weightIDs) (fun i => f.weightGradient i c) (List.range f.numberOfWeights) 0

/-- lweightedsum_of_functions.hxx 122-145 `shape`, `dimension`, `size` -/
def toFun [CommRing V] (mem : Mem V) (f : LSum V) : Fun V := ⟨f.shape, f.shape.foldl (· * ·) 1, f.eval mem⟩

/-- lweightedsum_of_functions.hxx 172-188 -/
def sizes (f : LSum V) : Nat × Nat := (1 + f.shape.length + 1 + f.weightIDs.length, f.feat.length * f.shape.foldl (· * ·) 1)

/-- lweightedsum_of_functions.hxx 216-221: the values of the first `n` feature tables. -/
def readTables : Nat → List (Arr V) → Option (List V)
  | 0, _ => some []
  | _ + 1, [] => none
  | n + 1, a :: as =>
    match Explicit.readFrom a a.geometry.size 0, readTables n as with
    | some x, some y => some (x ++ y)
    | _, _ => none

/-- lweightedsum_of_functions.hxx 190-223 -/
def serialize (f : LSum V) : Option (List Nat × List V) :=
  (readTables f.weightIDs.length f.feat).map (fun vs => (f.shape.length :: f.shape ++ f.weightIDs.length :: f.weightIDs, vs))

/-- lweightedsum_of_functions.hxx 225-260: the shape, the numbers of the weights and the tables are read into local variables; `dst` is not written. -/
def deserialize (ix : List Nat) (vs : List V) (dst : LSum V) : Option (LSum V) :=
  match ix with
  | [] => none
  | dim :: ix =>
    match readN dim ix with
    | some (shape, numW :: ix) =>
      match readN numW ix, readN (numW * shape.foldl (· * ·) 1) vs with
      | some _, some _ => some dst
      | _, _ => none
    | _ => none

end LSum

/-! ### LUnary -/

/-- lunary.hxx 98-103 -/
structure LUnary (V : Type) where
  weights : Option Nat
  numberOfLabels : Nat
  offsets : List Nat
  weightIds : List Nat
  features : List V

namespace LUnary

/-- lunary.hxx 41-50 -/
def default : LUnary V := ⟨none, 0, [], [], []⟩

/-- The three writes of one label (lunary.hxx 153-155, 158-160, 173-175, 217-219). -/
def setOffsets (n l : Nat) (a b c : Nat) (offsets : List Nat) : Option (List Nat) :=
  (setAt offsets (0 * n + l) a).bind (fun o => (setAt o (1 * n + l) b).bind (fun o => setAt o (2 * n + l) c))

/-- The loop `out[start + i] = get(i)` (lunary.hxx 162-164, 177-179, 229-232). -/
def writeBlock {α : Type} (get : Nat → Option α) (start : Nat) : List Nat → List α → Option (List α)
  | [], out => some out
  | i :: rest, out =>
    match get i with
    | none => none
    | some x => (setAt out (start + i) x).bind (writeBlock get start rest)

/-- The loop over labels of lunary.hxx 157-166 (`shift` is 1) and 171-182 (`shift` is 0); `s` is (offsets_, weightIds_, wOffset). -/
def fillRows (ids : Arr Nat) (n nwForL shift : Nat) : List Nat → List Nat × List Nat × Nat → Option (List Nat × List Nat × Nat)
  | [], s => some s
  | l :: rest, (offsets, weightIds, wOffset) =>
    match setOffsets n l nwForL wOffset 0 offsets, writeBlock (fun wi => ids.get [l - shift, wi]) wOffset (List.range nwForL) weightIds with
    | some offsets, some weightIds => fillRows ids n nwForL shift rest (offsets, weightIds, wOffset + nwForL)
    | _, _ => none

/-- lunary.hxx 115-189: the constructor with arrays. -/
def ofArrays [CommRing V] (weights numberOfLabels : Nat) (weightIds : Arr Nat) (features : Arr V) (makeFirstEntryConst : Bool) : Outcome Unit (LUnary V) :=
  if weightIds.geometry.shape.length ≠ 2 then .throw ()
  else
    match weightIds.geometry.shape with
    | [rows, nwForL] =>
      if rows + (if makeFirstEntryConst then 1 else 0) ≠ numberOfLabels then .throw ()
      else if features.geometry.shape.length ≠ 1 then .throw ()
      else if features.geometry.shape ≠ [nwForL] then .throw ()
      else
        match writeBlock features.getIndex 0 (List.range features.geometry.size) (List.replicate features.geometry.size 0) with
        | none => .ub
        | some feats =>
          let offsets := List.replicate (numberOfLabels * 3) 0
          let ids := List.replicate weightIds.geometry.size 0
          let filled :=
            if makeFirstEntryConst then
              (setOffsets numberOfLabels 0 0 0 0 offsets).bind (fun offsets =>
                fillRows weightIds numberOfLabels nwForL 1 ((List.range numberOfLabels).drop 1) (offsets, ids, 0))
            else fillRows weightIds numberOfLabels nwForL 0 (List.range numberOfLabels) (offsets, ids, 0)
          match filled with
          | none => .ub
          | some (offsets, ids, _) => .ok ⟨some weights, numberOfLabels, offsets, ids, feats⟩ ()
    | _ => .ub

/-- lunary.hxx 210-223: the loop that fetches the offsets; `s` is (offsets_, wOffset, fOffset). -/
def fetchOffsets (n : Nat) : List (List V × List Nat) → Nat → List Nat × Nat × Nat → Outcome Unit (List Nat × Nat × Nat)
  | [], _, s => .ok s ()
  | (features, ids) :: rest, l, (offsets, wOffset, fOffset) =>
    if ids.length ≠ features.length then .throw ()
    else
      match setOffsets n l ids.length wOffset fOffset offsets with
      | none => .ub
      | some offsets => fetchOffsets n rest (l + 1) (offsets, wOffset + ids.length, fOffset + features.length)

/-- lunary.hxx 93-95 `featureOffset`, 87-89 `numWeightsForL`, 90-92 `weightIdOffset`. -/
def offsetEntry (offsets : List Nat) (n row l : Nat) : Option Nat := offsets[row * n + l]?

/-- lunary.hxx 228-234: the loop that writes; note that `featureOffset` is used for both. -/
def writeLabels (n : Nat) (offsets : List Nat) : List (List V × List Nat) → Nat → List Nat × List V → Option (List Nat × List V)
  | [], _, s => some s
  | (features, ids) :: rest, l, (outIds, outFeatures) =>
    match offsetEntry offsets n 0 l, offsetEntry offsets n 2 l with
    | some nwForL, some start =>
      match writeBlock (fun i => ids[i]?) start (List.range nwForL) outIds,
        writeBlock (fun i => features[i]?) start (List.range nwForL) outFeatures with
      | some outIds, some outFeatures => writeLabels n offsets rest (l + 1) (outIds, outFeatures)
      | _, _ => none
    | _, _ => none

/-- lunary.hxx 191-243: the constructor with features and numbers of weights of each label. -/
def ofLabels [CommRing V] (weights : Nat) (perLabel : List (List V × List Nat)) : Outcome Unit (LUnary V) :=
  match fetchOffsets perLabel.length perLabel 0 (List.replicate (perLabel.length * 3) 0, 0, 0) with
  | .throw () => .throw ()
  | .ub => .ub
  | .ok (offsets, wOffset, fOffset) () =>
    match writeLabels perLabel.length offsets perLabel 0 (List.replicate wOffset 0, List.replicate fOffset 0) with
    | none => .ub
    | some (ids, features) =>
      if (RandomAccessSet.insertRange natLess [] ids).length ≠ ids.length then .throw ()
      else .ok ⟨some weights, perLabel.length, offsets, ids, features⟩ ()

/-- lunary.hxx 72-74 -/
def setWeights (f : LUnary V) (k : Nat) : LUnary V := { f with weights := some k }

/-- lunary.hxx 76-78 -/
def numberOfWeights (f : LUnary V) : Nat := f.weightIds.length

/-- lunary.hxx 80-82 -/
def weightIndex (f : LUnary V) (weightNumber : Nat) : Option Nat := f.weightIds[weightNumber]?

/-- lunary.hxx 247-268 -/
def weightGradient [CommRing V] (f : LUnary V) (weightNumber : Nat) (c : List Nat) : Outcome Unit V :=
  if weightNumber < f.numberOfWeights then
    match c[0]? with
    | none => .ub
    | some l =>
      match offsetEntry f.offsets f.numberOfLabels 0 l with
      | none => .ub
      | some nwForL =>
        if nwForL > 0 then
          match offsetEntry f.offsets f.numberOfLabels 1 l with
          | none => .ub
          | some wiStart =>
            if weightNumber ≥ wiStart ∧ weightNumber < wiStart + nwForL then
              match offsetEntry f.offsets f.numberOfLabels 2 l with
              | none => .ub
              | some fo =>
                match f.features[fo + (weightNumber - wiStart)]? with
                | none => .ub
                | some x => .ok x ()
            else .ok 0 ()
        else .ok 0 ()
  else .throw ()

/-- lunary.hxx 270-297 `operator()`; the offsets are read in every step of the loop. -/
def eval [CommRing V] (mem : Mem V) (f : LUnary V) (c : List Nat) : Option V :=
  match c[0]? with
  | none => none
  | some l =>
    match offsetEntry f.offsets f.numberOfLabels 0 l with
    | none => none
    | some nwForL =>
      sumLoop
        (fun i => (offsetEntry f.offsets f.numberOfLabels 1 l).bind (fun wo => weightAt mem f.weights f.weightIds (wo + i)))
        (fun i => (offsetEntry f.offsets f.numberOfLabels 2 l).bind (fun fo => f.features[fo + i]?))
        (List.range nwForL) 0

/-- lunary.hxx 300-319 `shape`, `dimension`, `size` -/
def toFun [CommRing V] (mem : Mem V) (f : LUnary V) : Fun V := ⟨[f.numberOfLabels], f.numberOfLabels, f.eval mem⟩

/-- lunary.hxx 346-371 -/
def sizes (f : LUnary V) : Nat × Nat := (1 + 1 + 1 + 3 * f.numberOfLabels + f.weightIds.length, f.features.length)

/-- lunary.hxx 373-418 -/
def serialize (f : LUnary V) : List Nat × List V :=
  (f.numberOfLabels :: f.weightIds.length :: f.features.length :: (f.offsets ++ f.weightIds), f.features)

/-- lunary.hxx 420-474: everything but the pointer is overwritten. -/
def deserialize (ix : List Nat) (vs : List V) (dst : LUnary V) : Option (LUnary V) :=
  match ix with
  | n :: nW :: nF :: ix =>
    match readN (3 * n) ix with
    | none => none
    | some (offsets, ix) =>
      match readN nW ix, readN nF vs with
      | some (ids, _), some (features, _) =>
        some { dst with numberOfLabels := n, offsets := offsets, weightIds := ids, features := features }
      | _, _ => none
  | _ => none

end LUnary

/-! ### Regularizer and constraints of weights -/

/-- weights.hxx 90-94 -/
inductive Norm where
  | none
  | l1
  | l2
  deriving DecidableEq

/-- weights.hxx 96-112: the type of the regularizer for a number; other numbers throw. -/
def normOf (regularizationNorm : Int) : Outcome Unit Norm :=
  if regularizationNorm = -1 then .ok .none ()
  else if regularizationNorm = 1 then .ok .l1 ()
  else if regularizationNorm = 2 then .ok .l2 ()
  else .throw ()

/-- weights.hxx 126-128 `regularizerNorm` -/
def normNumber : Norm → Int
  | .none => -1
  | .l1 => 1
  | .l2 => 2

/-- weights.hxx 130-149 `evaluate` -/
def regularize [CommRing V] [LinearOrder V] (norm : Norm) (lambda : V) (weights : List V) : V :=
  match norm with
  | .none => 0
  | .l1 => weights.foldl (fun val w => val + |w|) 0 * lambda
  | .l2 => weights.foldl (fun val w => val + w ^ 2) 0 * lambda

/-- weights.hxx 258-269 -/
structure Constraints (V : Type) where
  wLowerBounds : List V
  wUpperBounds : List V
  cLowerBounds : List V
  cUpperBounds : List V
  cOffset : Nat
  cStart : List Nat
  cSize : List Nat
  cIndices : List Nat
  cCoeff : List V

namespace Constraints

/-- weights.hxx 160-171; `minusInf` and `inf` are the infinities of the value type. -/
def make (nWeights : Nat) (minusInf inf : V) : Constraints V :=
  ⟨List.replicate nWeights minusInf, List.replicate nWeights inf, [], [], 0, [], [], [], []⟩

/-- weights.hxx 172-186 -/
def ofBounds (lb ub : List V) : Constraints V := ⟨lb, ub.take lb.length, [], [], 0, [], [], [], []⟩

/-- weights.hxx 237-256; the two bounds are not used. -/
def addConstraint (s : Constraints V) (indices : List Nat) (coeff : List V) (_lowerBound _upperBound : V) : Option (Constraints V) :=
  match readN indices.length coeff with
  | none => none
  | some (cs, _) =>
    some { s with
      cSize := s.cSize ++ [indices.length]
      cStart := s.cStart ++ [s.cOffset]
      cOffset := s.cOffset + indices.length
      cIndices := s.cIndices ++ indices
      cCoeff := s.cCoeff ++ cs }

/-- weights.hxx 227-235 `setLowerBounds`, `setUpperBounds` -/
def setLowerBounds (s : Constraints V) (lb : List V) : Constraints V := { s with wLowerBounds := lb }
/-- weights.hxx 232-235 -/
def setUpperBounds (s : Constraints V) (ub : List V) : Constraints V := { s with wUpperBounds := ub }
/-- weights.hxx 188-190 -/
def numberOfConstraints (s : Constraints V) : Nat := s.cStart.length
/-- weights.hxx 192-197 -/
def weightLowerBound (s : Constraints V) (wi : Nat) : Option V := s.wLowerBounds[wi]?
/-- weights.hxx 195-197 -/
def weightUpperBound (s : Constraints V) (wi : Nat) : Option V := s.wUpperBounds[wi]?
/-- weights.hxx 206-208 -/
def constraintSize (s : Constraints V) (ci : Nat) : Option Nat := s.cSize[ci]?
/-- weights.hxx 209-211 -/
def constraintLowerBound (s : Constraints V) (ci : Nat) : Option V := s.cLowerBounds[ci]?
/-- weights.hxx 212-214 -/
def constraintUpperBound (s : Constraints V) (ci : Nat) : Option V := s.cUpperBounds[ci]?

end Constraints

/-! ### UnaryLossFunction -/

/-- unary_loss_function.hxx 32-39; the array of label multipliers is shared, so it is part of the type here. -/
inductive LossType (V : Type) where
  | hamming
  | labelVectorConf (labelMult : Arr V)
  | labelVectorGt (labelMult : Arr V)
  | labelMatrix (labelMult : Arr V)
  | l1
  | l2

/-- unary_loss_function.hxx 93-126 `operator()`. Labels are converted to `int` without overflow. -/
def lossEval [CommRing V] (ty : LossType V) (multiplier : V) (gtLabel : Nat) (c : List Nat) : Option V :=
  match c[0]? with
  | none => none
  | some l =>
    let isDifferent : V := if l ≠ gtLabel then 1 else 0
    match ty with
    | .hamming => some ((-1) * multiplier * isDifferent)
    | .labelVectorConf a => (a.getIndex l).map (fun x => multiplier * isDifferent * x)
    | .labelVectorGt a => (a.getIndex gtLabel).map (fun x => multiplier * isDifferent * x)
    | .labelMatrix a => (a.get [l, gtLabel]).map (fun x => multiplier * isDifferent * x)
    | .l1 => some (multiplier * ((((l : Int) - (gtLabel : Int)).natAbs : Nat) : V))
    | .l2 => some (multiplier * ((((l : Int) - (gtLabel : Int)) ^ 2 : Int) : V))

end Learnable
end OpenGM
