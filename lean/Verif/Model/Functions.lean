import Verif.Model.Walkers
import Mathlib.Algebra.Order.Ring.Abs
/-
Models of the function types in include/opengm/functions (potts.hxx, pottsn.hxx, constant.hxx, absolute_difference.hxx,
squared_difference.hxx, truncated_absolute_difference.hxx, truncated_squared_difference.hxx), of the fallback implementations in
function_properties_base.hxx and of FunctionSerialization.

Values form a linearly ordered commutative ring (no overflow, no rounding; `std::pow` with a whole exponent is the power). Sizes
are natural numbers. `none` is an access out of range (also of the label sequence behind the iterator).
-/
namespace OpenGM
namespace Functions
open Walkers

/-- What the fallback implementations see of a function: `shape(i)` and `dimension()`, `size()`, `operator()`. -/
structure Fun (V : Type) where
  shape : List Nat
  size : Nat
  eval : List Nat → Option V

section Classes
variable {V : Type} [CommRing V] [LinearOrder V]

/-- potts.hxx 48-51 -/
structure Potts (V : Type) where
  n1 : Nat
  n2 : Nat
  valueEqual : V
  valueNotEqual : V
  deriving DecidableEq

namespace Potts

/-- potts.hxx 102-112 `operator()` -/
def eval (f : Potts V) (c : List Nat) : Option V :=
  match c[0]?, c[1]? with
  | some a, some b => some (if a = b then f.valueEqual else f.valueNotEqual)
  | _, _ => none

/-- potts.hxx 126-146 `shape`, `dimension`, `size` -/
def toFun (f : Potts V) : Fun V := ⟨[f.n1, f.n2], f.n1 * f.n2, f.eval⟩

/-- potts.hxx 252-257 -/
def min (f : Potts V) : V := if f.valueEqual < f.valueNotEqual then f.valueEqual else f.valueNotEqual
/-- potts.hxx 259-264 -/
def max (f : Potts V) : V := if f.valueNotEqual > f.valueEqual then f.valueNotEqual else f.valueEqual
/-- potts.hxx 266-273 -/
def sum (f : Potts V) : V :=
  let minLabels := Nat.min f.n1 f.n2
  f.valueNotEqual * ((f.n1 * f.n2 - minLabels : Nat) : V) + f.valueEqual * (minLabels : V)
/-- potts.hxx 275-288 -/
def product (f : Potts V) : V :=
  let minLabels := Nat.min f.n1 f.n2
  f.valueNotEqual ^ (f.n1 * f.n2 - minLabels) * f.valueEqual ^ minLabels
/-- potts.hxx 290-300 -/
def minMax (f : Potts V) : V × V :=
  if f.valueEqual < f.valueNotEqual then (f.valueEqual, f.valueNotEqual) else (f.valueNotEqual, f.valueEqual)
/-- potts.hxx 238-243 -/
def isPotts (_f : Potts V) : Bool := true
/-- potts.hxx 245-250 -/
def isGeneralizedPotts (_f : Potts V) : Bool := true
/-- potts.hxx 200-210 `operator==` -/
def beq (f g : Potts V) : Bool :=
  decide (f.n1 = g.n1) && decide (f.n2 = g.n2) && decide (f.valueEqual = g.valueEqual) && decide (f.valueNotEqual = g.valueNotEqual)

/-- potts.hxx 148-164, 166-182: FunctionSerialization: sizes and sequences -/
def serialize (f : Potts V) : List Nat × List V := ([f.n1, f.n2], [f.valueEqual, f.valueNotEqual])
/-- potts.hxx 184-198 -/
def deserialize (ix : List Nat) (vs : List V) : Option (Potts V) :=
  match ix[0]?, ix[1]?, vs[0]?, vs[1]? with
  | some s1, some s2, some p1, some p2 => some ⟨s1, s2, p1, p2⟩
  | _, _, _, _ => none

end Potts

/-- pottsn.hxx 38-41; `size_` is the product (`std::accumulate` in `int`: no overflow here) -/
structure PottsN (V : Type) where
  shape : List Nat
  size : Nat
  valueEqual : V
  valueNotEqual : V
  deriving DecidableEq

namespace PottsN

/-- pottsn.hxx 69-86: constructor -/
def mk' (shape : List Nat) (e n : V) : PottsN V := ⟨shape, shape.foldl (· * ·) 1, e, n⟩

/-- pottsn.hxx 104-110: the loop over the positions still to compare -/
def evalLoop (f : PottsN V) (tmp : Nat) (c : List Nat) : List Nat → Option V
  | [] => some f.valueEqual
  | i :: is =>
    match c[i]? with
    | none => none
    | some x => if x ≠ tmp then some f.valueNotEqual else evalLoop f tmp c is

/-- pottsn.hxx 96-111 `operator()` -/
def eval (f : PottsN V) (c : List Nat) : Option V :=
  match c[0]? with
  | none => none
  | some tmp => f.evalLoop tmp c (List.range f.shape.length)

/-- pottsn.hxx 113-133 -/
def toFun (f : PottsN V) : Fun V := ⟨f.shape, f.size, f.eval⟩

/-- pottsn.hxx 135-173 -/
def serialize (f : PottsN V) : List Nat × List V := (f.shape.length :: f.shape, [f.valueEqual, f.valueNotEqual])

end PottsN

/-- Reading `dim` entries from an index sequence, one after the other. -/
def readShape : Nat → List Nat → Option (List Nat)
  | 0, _ => some []
  | _ + 1, [] => none
  | n + 1, i :: is => (readShape n is).map (i :: ·)

/-- pottsn.hxx 175-196 -/
def PottsN.deserialize (ix : List Nat) (vs : List V) : Option (PottsN V) :=
  match ix with
  | [] => none
  | dim :: ix =>
    match readShape dim ix, vs[0]?, vs[1]? with
    | some shape, some p1, some p2 => some (PottsN.mk' shape p1 p2)
    | _, _, _ => none

/-- constant.hxx 51-53 -/
structure Constant (V : Type) where
  value : V
  shape : List Nat
  size : Nat
  deriving DecidableEq

namespace Constant

/-- constant.hxx 82-96: constructor -/
def mk' (shape : List Nat) (v : V) : Constant V := ⟨v, shape, shape.foldl (· * ·) 1⟩

/-- constant.hxx 104-112, 117-140 -/
def toFun (f : Constant V) : Fun V := ⟨f.shape, f.size, fun _ => some f.value⟩

/-- constant.hxx 40 -/
def min (f : Constant V) : V := f.value
/-- constant.hxx 41 -/
def max (f : Constant V) : V := f.value
/-- constant.hxx 42 -/
def sum (f : Constant V) : V := f.value * (f.size : V)
/-- constant.hxx 43-48 -/
def product (f : Constant V) : V := f.value ^ f.size
/-- constant.hxx 49 -/
def minMax (f : Constant V) : V × V := (f.value, f.value)
/-- constant.hxx 38 -/
def isPotts (_f : Constant V) : Bool := true
/-- constant.hxx 39 -/
def isGeneralizedPotts (_f : Constant V) : Bool := true

/-- constant.hxx 142-175 -/
def serialize (f : Constant V) : List Nat × List V := (f.shape.length :: f.shape, [f.value])
/-- constant.hxx 177-193 -/
def deserialize (ix : List Nat) (vs : List V) : Option (Constant V) :=
  match vs[0]?, ix with
  | some v, dim :: ix => (readShape dim ix).map (fun shape => ⟨v, shape, shape.foldl (· * ·) 1⟩)
  | _, _ => none

end Constant

/-- absolute_difference.hxx 29-32, squared_difference.hxx: label counts and scale -/
structure Difference (V : Type) where
  n1 : Nat
  n2 : Nat
  scale : V
  deriving DecidableEq

namespace Difference

/-- absolute_difference.hxx 76-86; label differences are exact in the value type. -/
def evalAbs (f : Difference V) (c : List Nat) : Option V :=
  match (c[0]? : Option Nat), (c[1]? : Option Nat) with
  | some a, some b => some (f.scale * |(a : V) - (b : V)|)
  | _, _ => none

/-- squared_difference.hxx 75-85 -/
def evalSq (f : Difference V) (c : List Nat) : Option V :=
  match (c[0]? : Option Nat), (c[1]? : Option Nat) with
  | some a, some b => some (((a : V) - (b : V)) * ((a : V) - (b : V)) * f.scale)
  | _, _ => none

/-- absolute_difference.hxx 91-116 -/
def toFunAbs (f : Difference V) : Fun V := ⟨[f.n1, f.n2], f.n1 * f.n2, f.evalAbs⟩
/-- squared_difference.hxx 90-117 -/
def toFunSq (f : Difference V) : Fun V := ⟨[f.n1, f.n2], f.n1 * f.n2, f.evalSq⟩

/-- absolute_difference.hxx 118-150: the value sequence is `src({0, 1})`. -/
def serializeAbs (f : Difference V) : Option (List Nat × List V) := (f.evalAbs [0, 1]).map (fun v => ([f.n1, f.n2], [v]))
/-- squared_difference.hxx 120-151 -/
def serializeSq (f : Difference V) : List Nat × List V := ([f.n1, f.n2], [f.scale])
/-- absolute_difference.hxx 152-163; squared_difference.hxx 153-165 -/
def deserialize (ix : List Nat) (vs : List V) : Option (Difference V) :=
  match ix[0]?, ix[1]?, vs[0]? with
  | some a, some b, some v => some ⟨a, b, v⟩
  | _, _, _ => none

end Difference

/-- truncated_absolute_difference.hxx 31-34, truncated_squared_difference.hxx -/
structure Truncated (V : Type) where
  n1 : Nat
  n2 : Nat
  parameter1 : V
  parameter2 : V
  deriving DecidableEq

namespace Truncated

/-- truncated_absolute_difference.hxx 76-86 -/
def evalAbs (f : Truncated V) (c : List Nat) : Option V :=
  match (c[0]? : Option Nat), (c[1]? : Option Nat) with
  | some a, some b =>
    some (if |(a : V) - (b : V)| > f.parameter1 then f.parameter1 * f.parameter2 else |(a : V) - (b : V)| * f.parameter2)
  | _, _ => none

/-- truncated_squared_difference.hxx 79-89 -/
def evalSq (f : Truncated V) (c : List Nat) : Option V :=
  match (c[0]? : Option Nat), (c[1]? : Option Nat) with
  | some a, some b =>
    some (if ((a : V) - (b : V)) * ((a : V) - (b : V)) > f.parameter1 then f.parameter1 * f.parameter2
      else ((a : V) - (b : V)) * ((a : V) - (b : V)) * f.parameter2)
  | _, _ => none

/-- truncated_absolute_difference.hxx 91-114 -/
def toFunAbs (f : Truncated V) : Fun V := ⟨[f.n1, f.n2], f.n1 * f.n2, f.evalAbs⟩
/-- truncated_squared_difference.hxx 94-117 -/
def toFunSq (f : Truncated V) : Fun V := ⟨[f.n1, f.n2], f.n1 * f.n2, f.evalSq⟩

/-- truncated_absolute_difference.hxx 116-148, truncated_squared_difference.hxx 119-152 -/
def serialize (f : Truncated V) : List Nat × List V := ([f.n1, f.n2], [f.parameter1, f.parameter2])
/-- truncated_absolute_difference.hxx 150-165, truncated_squared_difference.hxx 154-169 -/
def deserialize (ix : List Nat) (vs : List V) : Option (Truncated V) :=
  match ix[0]?, ix[1]?, vs[0]?, vs[1]? with
  | some s1, some s2, some p1, some p2 => some ⟨s1, s2, p1, p2⟩
  | _, _, _, _ => none

end Truncated

end Classes

/-! ### function_properties_base.hxx -/

section Base
variable {V : Type}

/-- Counting loops over a ShapeWalker that hand every value to a functor. -/
def walkFold {σ : Type} (next : List Nat → Option (List Nat)) (read : List Nat → Option V) (step : σ → List Nat → V → σ) :
    Nat → List Nat → σ → Option σ
  | 0, _, s => some s
  | n + 1, c, s =>
    match read c with
    | none => none
    | some x =>
      match next c with
      | none => none
      | some c' => walkFold next read step n c' (step s c x)

/-- Counting loops over a ShapeWalker that return false at the first failing check. -/
def checkLoop (next : List Nat → Option (List Nat)) (check : List Nat → Option Bool) : Nat → List Nat → Option Bool
  | 0, _ => some true
  | n + 1, c =>
    match check c with
    | none => none
    | some false => some false
    | some true =>
      match next c with
      | none => none
      | some c' => checkLoop next check n c'

/-- function_properties_base.hxx 176-188 and 211-223 `forAllValuesInOrder(WithCoordinate)`; the variants "in any order" and "at least all
unique values" (190-208, 239-257) call it. -/
def forAllValuesInOrder {σ : Type} (f : Fun V) (functor : σ → List Nat → V → σ) (s : σ) : Option σ :=
  walkFold (shapeWalkerNext f.shape) f.eval functor f.size (shapeWalkerInit f.shape) s

/-- function_properties_base.hxx 225-237 `forAllValuesInSwitchedOrder` -/
def forAllValuesInSwitchedOrder {σ : Type} (f : Fun V) (functor : σ → V → σ) (s : σ) : Option σ :=
  walkFold (switchedNext f.shape) f.eval (fun s _ x => functor s x) f.size (shapeWalkerInit f.shape) s

/-- function_properties_base.hxx 27-40 `isNumericEqual`; `tol` is `OPENGM_FLOAT_TOL` for floating point types and nothing for others. -/
def isNumericEqual [Sub V] [LinearOrder V] (tol : Option V) (a b : V) : Bool :=
  match tol with
  | some t => if a < b then decide (b - a < t) else decide (a - b < t)
  | none => decide (a = b)

/-- function_properties_base.hxx 157-161: comparison of the shapes -/
def sameShape : List Nat → List Nat → Bool
  | [], _ => true
  | _ :: _, [] => false
  | a :: as, b :: bs => if a ≠ b then false else sameShape as bs

/-- function_properties_base.hxx 146-174 `operator==` -/
def eqFun [Sub V] [LinearOrder V] (tol : Option V) (fa fb : Fun V) : Option Bool :=
  if fa.shape.length = fb.shape.length then
    if sameShape fa.shape fb.shape then
      checkLoop (shapeWalkerNext fa.shape) (fun c =>
        match fa.eval c, fb.eval c with
        | some x, some y => some (isNumericEqual tol x y)
        | _, _ => none) fa.size (shapeWalkerInit fa.shape)
    else some false
  else some false

/-- A loop that returns false at the first failing check. -/
def allM {α : Type} (check : α → Option Bool) : List α → Option Bool
  | [] => some true
  | a :: as =>
    match check a with
    | none => none
    | some false => some false
    | some true => allM check as

section Ordered
variable [CommRing V] [LinearOrder V]

/-- `c[0] < c[1] ? c[1] - c[0] : c[0] - c[1]` -/
def labelDistance (a b : Nat) : Nat := if a < b then b - a else a - b

/-- function_properties_base.hxx 273-293 `isSquaredDifference` and 323-342 `isAbsoluteDifference`; `d` is the distance or its square. -/
def isDifference (tol : Option V) (d : Nat → V) (f : Fun V) : Option Bool :=
  match f.shape with
  | [s0, s1] =>
    match f.eval [1, 0] with
    | none => none
    | some weight =>
      allM (fun c1 => allM (fun c0 =>
        match f.eval [c0, c1] with
        | none => none
        | some x => some (isNumericEqual tol x (d (labelDistance c0 c1) * weight))) (List.range s0)) (List.range s1)
  | _ => some false

/-- function_properties_base.hxx 273-293 -/
def isSquaredDifference (tol : Option V) (f : Fun V) : Option Bool := isDifference tol (fun k => (k : V) * (k : V)) f
/-- function_properties_base.hxx 323-342 -/
def isAbsoluteDifference (tol : Option V) (f : Fun V) : Option Bool := isDifference tol (fun k => (k : V)) f

/-- function_properties_base.hxx 295-321 `isTruncatedSquaredDifference` and 344-369 `isTruncatedAbsoluteDifference`. `shape(0) - 1` wraps
around for an empty shape; here it is 0 then, but the access `f(1, 0)` before is out of range. -/
def isTruncatedDifference (tol : Option V) (d : Nat → V) (f : Fun V) : Option Bool :=
  match f.shape with
  | [s0, s1] =>
    match f.eval [1, 0], f.eval [s0 - 1, 0] with
    | some weight, some truncated =>
      allM (fun c1 => allM (fun c0 =>
        match f.eval [c0, c1] with
        | none => none
        | some fval =>
          let compare := d (labelDistance c0 c1) * weight
          some (!((!isNumericEqual tol fval compare) && !(isNumericEqual tol fval truncated && decide (truncated < compare)))))
        (List.range s0)) (List.range s1)
    | _, _ => none
  | _ => some false

/-- function_properties_base.hxx 295-321 -/
def isTruncatedSquaredDifference (tol : Option V) (f : Fun V) : Option Bool := isTruncatedDifference tol (fun k => (k : V) * (k : V)) f
/-- function_properties_base.hxx 344-369 -/
def isTruncatedAbsoluteDifference (tol : Option V) (f : Fun V) : Option Bool := isTruncatedDifference tol (fun k => (k : V)) f

/-- indexing.hxx 9-17 `isEqualValueVector` -/
def isEqualValueVector : List Nat → Bool
  | [] => true
  | x :: xs => (x :: xs).all (fun y => decide (x = y))

/-- function_properties_base.hxx 371-394 `isPotts` -/
def isPotts (f : Fun V) : Option Bool :=
  if f.size ≤ 2 then some true
  else
    match f.eval (shapeWalkerInit f.shape), shapeWalkerNext f.shape (shapeWalkerInit f.shape) with
    | some vEqual, some c1 =>
      match f.eval c1, shapeWalkerNext f.shape c1 with
      | some vNotEqual, some c2 =>
        checkLoop (shapeWalkerNext f.shape) (fun c =>
          match f.eval c with
          | none => none
          | some x => some (if isEqualValueVector c then decide (vEqual = x) else decide (vNotEqual = x))) (f.size - 2) c2
      | _, _ => none
    | _, _ => none

/-- One of the value tables of isGeneralizedPotts: all the reference values are read before the loops. -/
def readAll (f : Fun V) : List (List Nat) → Option (List V)
  | [] => some []
  | c :: cs =>
    match f.eval c, readAll f cs with
    | some x, some xs => some (x :: xs)
    | _, _ => none

/-- The nested loops of isGeneralizedPotts: `l[0]` outermost; the body is `check` at every tuple. -/
def nestedLoops (check : List Nat → Option Bool) : List Nat → List Nat → Option Bool
  | [], l => check l
  | n :: shape, l => allM (fun x => nestedLoops check shape (l ++ [x])) (List.range n)

/-- Pairs of positions and whether they shall carry equal labels. -/
def pattern (l : List Nat) (eqs : List (Nat × Nat × Bool)) : Bool :=
  eqs.all (fun e => match l[e.1]?, l[e.2.1]? with | some a, some b => decide (decide (a = b) = e.2.2) | _, _ => false)

/-- function_properties_base.hxx 412-435: order 3; conditions on the pairs (1,2), (0,2), (0,1) and the tuple of the reference value. -/
def cases3 : List (List (Nat × Nat × Bool) × List Nat) :=
  [([(1, 2, false), (0, 2, false), (0, 1, false)], [0, 1, 2]),
   ([(1, 2, false), (0, 2, false), (0, 1, true)], [1, 1, 0]),
   ([(1, 2, false), (0, 2, true), (0, 1, false)], [1, 0, 1]),
   ([(1, 2, true), (0, 2, false), (0, 1, false)], [0, 1, 1]),
   ([(1, 2, true), (0, 2, true), (0, 1, true)], [0, 0, 0])]

/-- The conditions of order 4: equalities of the pairs (2,3), (1,3), (0,3), (1,2), (0,2), (0,1). -/
def pat4 (a b c d e f : Bool) : List (Nat × Nat × Bool) := [(2, 3, a), (1, 3, b), (0, 3, c), (1, 2, d), (0, 2, e), (0, 1, f)]

/-- function_properties_base.hxx 436-497: order 4; conditions and the tuple of the reference value, in the order of the checks. -/
def cases4 : List (List (Nat × Nat × Bool) × List Nat) :=
  [(pat4 false false false false false false, [0, 1, 2, 3]),
   (pat4 false false false false false true, [0, 0, 1, 2]),
   (pat4 false false false false true false, [0, 1, 0, 2]),
   (pat4 false false false true false false, [1, 0, 0, 2]),
   (pat4 false false false true true true, [0, 0, 0, 1]),
   (pat4 false false true false false false, [0, 2, 1, 0]),
   (pat4 false false true true false false, [0, 1, 1, 0]),
   (pat4 false true false false true false, [0, 1, 0, 1]),
   (pat4 false true false false false false, [2, 0, 1, 0]),
   (pat4 false true true false false true, [0, 0, 1, 0]),
   (pat4 true true false true false false, [1, 0, 0, 0]),
   (pat4 true true true true true true, [0, 0, 0, 0]),
   (pat4 true false false false false true, [0, 0, 1, 1]),
   (pat4 true false false false false false, [2, 1, 0, 0]),
   (pat4 true false true false true false, [0, 1, 0, 0])]

/-- function_properties_base.hxx 400-411: order 2 -/
def cases2 : List (List (Nat × Nat × Bool) × List Nat) := [([(0, 1, true)], [0, 0]), ([(0, 1, false)], [0, 1])]

/-- The body of the loops: `if(condition && f(l) != reference) return false;` for every case. -/
def checkCases (x : V) (l : List Nat) : List (List (Nat × Nat × Bool)) → List V → Bool
  | p :: ps, v :: vs => if pattern l p && decide (x ≠ v) then false else checkCases x l ps vs
  | _, _ => true

/-- One order of isGeneralizedPotts. -/
def generalizedPottsOf (f : Fun V) (cases_ : List (List (Nat × Nat × Bool) × List Nat)) : Option Bool :=
  match readAll f (cases_.map (·.2)) with
  | none => none
  | some vs =>
    nestedLoops (fun l => match f.eval l with | none => none | some x => some (checkCases x l (cases_.map (·.1)) vs)) f.shape []

/-- function_properties_base.hxx 396-501 `isGeneralizedPotts`. `f(l)` is evaluated once per tuple here. -/
def isGeneralizedPotts (f : Fun V) : Option Bool :=
  if f.shape.length = 2 then generalizedPottsOf f cases2
  else if f.shape.length = 3 then generalizedPottsOf f cases3
  else if f.shape.length = 4 then generalizedPottsOf f cases4
  else some false

/-- function_properties_base.hxx 503-519 `isSubmodular`; the function is const, so the state of an Outcome is trivial. -/
def isSubmodular (f : Fun V) : Outcome Unit Bool :=
  if f.shape.length = 1 then .ok true ()
  else if f.shape = [2, 2] then
    match f.eval [0, 0], f.eval [1, 1], f.eval [1, 0], f.eval [0, 1] with
    | some a, some d, some c, some b => .ok (decide (a + d ≤ c + b)) ()
    | _, _, _, _ => .ub
  else .throw ()

/-- functors.hxx 22-24 with minimizer.hxx 32-35 -/
def accMin (acc v : V) : V := if acc < v then acc else v
/-- functors.hxx 22-24 with maximizer.hxx 32-35 -/
def accMax (acc v : V) : V := if v < acc then acc else v

/-- functors.hxx 52-68 `MinMaxFunctor::operator()` with `first_` false -/
def minMaxStep (s : V × V) (v : V) : V × V := (if v < s.1 then v else s.1, if v > s.2 then v else s.2)

/-- function_properties_base.hxx 528-537 `minMax` -/
def minMax (f : Fun V) : Option (V × V) :=
  match f.eval (List.replicate f.shape.length 0) with
  | none => none
  | some tmp => forAllValuesInOrder f (fun s _ v => minMaxStep s v) (tmp, tmp)

/-- function_properties_base.hxx 539-547 `min` -/
def min (f : Fun V) : Option V :=
  match f.eval (List.replicate f.shape.length 0) with
  | none => none
  | some tmp => forAllValuesInOrder f (fun s _ v => accMin s v) tmp

/-- function_properties_base.hxx 549-557 `max` -/
def max (f : Fun V) : Option V :=
  match f.eval (List.replicate f.shape.length 0) with
  | none => none
  | some tmp => forAllValuesInOrder f (fun s _ v => accMax s v) tmp

/-- function_properties_base.hxx 559-565 `sum` -/
def sum (f : Fun V) : Option V := forAllValuesInOrder f (fun s _ v => s + v) 0

/-- function_properties_base.hxx 567-573 `product` -/
def product (f : Fun V) : Option V := forAllValuesInOrder f (fun s _ v => s * v) 1

/-- Accumulation operations `accumulate` tells apart. -/
inductive ACC (V : Type) where
  | minimizer | maximizer | adder | integrator | multiplier
  | other (op : V → V → V) (neutral : V)

/-- function_properties_base.hxx 575-599 `accumulate`; `op v acc` is the in-place operation. -/
def accumulate (f : Fun V) : ACC V → Option V
  | .minimizer => min f
  | .maximizer => max f
  | .adder => sum f
  | .integrator => sum f
  | .multiplier => product f
  | .other op neutral => forAllValuesInOrder f (fun s _ v => op v s) neutral

end Ordered
end Base
end Functions
end OpenGM
