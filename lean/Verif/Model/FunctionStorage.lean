import Verif.Model.Functions
import Verif.Model.FactorOps
import Verif.Model.Partitions
/-
Models of functions with storage: serialization of ExplicitFunction and cloneAsExplicitFunction (functions/explicit_function.hxx),
SparseFunction (datastructures/sparsemarray/sparsemarray.hxx, functions/sparsemarray.hxx) and PottsGFunction (functions/pottsg.hxx).

Keys, strides and label counts are natural numbers (no overflow); `none` is an access out of range, a division by zero or a read of
an uninitialised array.
-/
namespace OpenGM
namespace Functions
open Marray Walkers FactorOps

variable {V : Type}

/-! ### ExplicitFunction -/

namespace Explicit

/-- explicit_function.hxx 122-125: `n` values from index `i` on. -/
def readFrom (a : Arr V) : Nat → Nat → Option (List V)
  | 0, _ => some []
  | n + 1, i =>
    match a.getIndex i with
    | none => none
    | some x => (readFrom a n (i + 1)).map (x :: ·)

/-- explicit_function.hxx 87-101 `indexSequenceSize`, `valueSequenceSize` -/
def sizes (a : Arr V) : Nat × Nat := (a.geometry.shape.length + 1, a.geometry.size)

/-- explicit_function.hxx 103-127 `serialize` -/
def serialize (a : Arr V) : Option (List Nat × List V) :=
  if a.geometry.shape.length = 0 then (a.getIndex 0).map (fun x => ([0], [x]))
  else (readFrom a a.geometry.size 0).map (fun vs => (a.geometry.shape.length :: a.geometry.shape, vs))

/-- explicit_function.hxx 151-154: the loop over the values -/
def writeFrom : Nat → Nat → List V → Arr V → Option (Arr V)
  | 0, _, _, a => some a
  | _ + 1, _, [], _ => none
  | n + 1, i, x :: vs, a => (setIndex a i x).bind (writeFrom n (i + 1) vs)

/-- explicit_function.hxx 129-156 `deserialize`; `zero` is `T()`. `assign()` makes the destination empty, whatever it was. -/
def deserialize (zero : V) (ix : List Nat) (vs : List V) : Option (Arr V) :=
  match ix with
  | [] => none
  | 0 :: _ => vs[0]?.map (fun x => Arr.scalar x defaultOrder)
  | (dim + 1) :: ix =>
    match readShape (dim + 1) ix with
    | none => none
    | some shape => ((Arr.empty : Arr V).resize zero shape zero).bind (fun a => writeFrom a.geometry.size 0 vs a)

end Explicit

/-- explicit_function.hxx 158-185 `cloneAsExplicitFunction`, in the form that returns a new function. -/
def cloneAsExplicit (zero : V) (f : Fun V) : Option (Arr V) :=
  ((Arr.empty : Arr V).resize zero f.shape zero).bind (fun out =>
    walkLoop (shapeWalkerNext f.shape) (fun c out => (f.eval c).bind (fun x => out.set c x)) f.size (shapeWalkerInit f.shape) out)

/-! ### SparseFunction -/

/-- sparsemarray.hxx 178-183; the container is a `std::map`: key-value pairs with increasing keys. -/
structure Sparse (V : Type) where
  defaultValue : V
  container : List (Nat × V)
  shape : List Nat
  strides : List Nat

/-- `std::map::insert`: nothing happens if the key is there. -/
def mapInsert (k : Nat) (x : V) : List (Nat × V) → List (Nat × V)
  | [] => [(k, x)]
  | e :: es => if k < e.1 then (k, x) :: e :: es else if k = e.1 then e :: es else e :: mapInsert k x es

/-- `std::map::find` -/
def mapFind (k : Nat) : List (Nat × V) → Option V
  | [] => none
  | e :: es => if e.1 = k then some e.2 else mapFind k es

namespace Sparse

/-- sparsemarray.hxx 46-53: the loop that computes the strides -/
def stridesFrom : Nat → List Nat → List Nat
  | _, [] => []
  | strideVal, n :: shape => strideVal :: stridesFrom (strideVal * n) shape

/-- sparsemarray.hxx 39-54: constructor -/
def make (shape : List Nat) (d : V) : Sparse V := ⟨d, [], shape, stridesFrom 1 shape⟩

/-- sparsemarray.hxx 97-105 `coordinateToKey`; also 107-114 `coordinateToKeyWithDim`, as the dimension matches the case. -/
def keyLoop : List Nat → List Nat → Nat → Option Nat
  | [], _, key => some key
  | _ :: _, [], _ => none
  | s :: ss, x :: c, key => keyLoop ss c (key + s * x)

/-- sparsemarray.hxx 97-105 -/
def coordinateToKey (f : Sparse V) (c : List Nat) : Option Nat := keyLoop f.strides c 0

/-- sparsemarray.hxx 84-89: the loop from the last dimension to the first; the strides come in reversed order, and so does the result. -/
def coordLoop : List Nat → Nat → Option (List Nat)
  | [], _ => some []
  | s :: ss, keyRest => if s = 0 then none else (coordLoop ss (keyRest - keyRest / s * s)).map (keyRest / s :: ·)

/-- sparsemarray.hxx 79-94 `keyToCoordinate` -/
def keyToCoordinate (f : Sparse V) (key : Nat) : Option (List Nat) :=
  if f.shape.length ≠ 1 then (coordLoop f.strides.reverse key).map List.reverse else some [key]

/-- sparsemarray.hxx 164-172 `valueFromKey` -/
def valueFromKey (f : Sparse V) (key : Nat) : V :=
  match mapFind key f.container with
  | some x => x
  | none => f.defaultValue

/-- sparsemarray.hxx 116-158 `operator()` -/
def eval (f : Sparse V) (c : List Nat) : Option V := (f.coordinateToKey c).map f.valueFromKey

/-- sparsemarray.hxx 174-177 `insert` -/
def insert (f : Sparse V) (c : List Nat) (x : V) : Option (Sparse V) :=
  (f.coordinateToKey c).map (fun k => ⟨f.defaultValue, mapInsert k x f.container, f.shape, f.strides⟩)

/-- sparsemarray.hxx 56-62 `size`, and shape -/
def toFun (f : Sparse V) : Fun V := ⟨f.shape, f.shape.foldl (· * ·) 1, f.eval⟩

/-- functions/sparsemarray.hxx 35-52 -/
def sizes (f : Sparse V) : Nat × Nat := (1 + f.shape.length + 1 + f.container.length, f.container.length + 1)

/-- functions/sparsemarray.hxx 54-84 `serialize` -/
def serialize (f : Sparse V) : List Nat × List V :=
  (f.shape.length :: f.shape ++ f.container.length :: f.container.map (·.1), f.defaultValue :: f.container.map (·.2))

/-- functions/sparsemarray.hxx 108-113: the loop over the entries -/
def readEntries : Nat → List Nat → List V → List (Nat × V) → Option (List (Nat × V))
  | 0, _, _, m => some m
  | n + 1, k :: ks, x :: xs, m => readEntries n ks xs (mapInsert k x m)
  | _ + 1, _, _, _ => none

/-- functions/sparsemarray.hxx 86-115 `deserialize` -/
def deserialize (ix : List Nat) (vs : List V) : Option (Sparse V) :=
  match ix, vs with
  | dim :: ix, d :: vs =>
    match readShape dim ix, ix[dim]? with
    | some shape, some n =>
      (readEntries n (ix.drop (dim + 1)) vs []).map (fun m => ⟨d, m, shape, stridesFrom 1 shape⟩)
    | _, _ => none
  | _, _ => none

end Sparse

/-! ### PottsGFunction -/

/-- pottsg.hxx 60-63. The tables of `P` are static: they are a state beside the function. -/
structure PottsG (V : Type) where
  shape : List Nat
  values : List V
  size : Nat

namespace PottsG

/-- Width of `size_t` (`P` is a `Partitions<size_t, size_t>`). -/
def width : Nat := 64

/-- pottsg.hxx 69 and partitions.hxx 141: both tables of Bell numbers are the same. -/
def bellNumber (n : Nat) : Option Nat := Partitions.bell[n]?

/-- pottsg.hxx 177-198 and 231-253: the switch from numbers of partitions to places; `none` is the default case. -/
def place : Nat → Option Nat
  | 0 => some 0
  | 1 => some 1
  | 2 => some 2
  | 4 => some 3
  | 7 => some 4
  | 8 => some 5
  | 12 => some 6
  | 16 => some 7
  | 18 => some 8
  | 25 => some 9
  | 32 => some 10
  | 33 => some 11
  | 42 => some 12
  | 52 => some 13
  | 63 => some 14
  | _ => none

/-- pottsg.hxx 95-115: constructor from a shape; the state is the static table. `zero` is 0. -/
def make (zero : V) (shape : List Nat) (parts : List Nat) : Outcome (List Nat) (PottsG V) :=
  match bellNumber shape.length with
  | none => .ub
  | some b =>
    if shape.length ≤ 4 then .ok ⟨shape, List.replicate b zero, shape.foldl (· * ·) 1⟩ parts
    else
      match Partitions.buildPartitions width shape.length parts with
      | .ub => .ub
      | .throw p => .throw p
      | .ok _ p => .ok ⟨shape, List.replicate b zero, shape.foldl (· * ·) 1⟩ p

/-- pottsg.hxx 117-142: constructor from a shape and values; the value sequence must be long enough. -/
def makeValues (zero : V) (shape : List Nat) (vs : List V) (parts : List Nat) : Outcome (List Nat) (PottsG V) :=
  match make zero shape parts with
  | .ub => .ub
  | .throw p => .throw p
  | .ok f p => if f.values.length ≤ vs.length then .ok ⟨shape, vs.take f.values.length, f.size⟩ p else .ub

/-- pottsg.hxx 144-148: default constructor -/
def default : PottsG V := ⟨[], [], 0⟩

/-- pottsg.hxx 150-205 `operator()`. For order at most 4 the loops are those of `Partitions::label2Number`. -/
def eval (zero : V) (f : PottsG V) (c : List Nat) (parts : List Nat) : Outcome (List Nat) V :=
  if c.length < f.shape.length then .ub
  else if f.shape.length ≤ 4 then
    match place (Partitions.label2Number width (c.take f.shape.length)) with
    | none => .ok zero parts
    | some i =>
      match f.values[i]? with
      | none => .ub
      | some x => .ok x parts
  else
    match Partitions.label2Index width (c.take f.shape.length) parts with
    | .ub => .ub
    | .throw p => .throw p
    | .ok none _ => .ub
    | .ok (some n) p =>
      match f.values[n]? with
      | none => .ub
      | some x => .ok x p

/-- pottsg.hxx 228-258 `setByPartition`; the default case of the switch does nothing (the assertion is off). -/
def setByPartition (f : PottsG V) (partition : Nat) (x : V) (parts : List Nat) : Option (PottsG V) :=
  if f.shape.length ≤ 4 then
    match place partition with
    | none => some f
    | some i => (setAt f.values i x).map (fun vs => ⟨f.shape, vs, f.size⟩)
  else
    match Partitions.number2Index partition parts with
    | none => none
    | some n => (setAt f.values n x).map (fun vs => ⟨f.shape, vs, f.size⟩)

/-- pottsg.hxx 207-226 `setByLabel` -/
def setByLabel (f : PottsG V) (l : List Nat) (x : V) (parts : List Nat) : Outcome (List Nat) (PottsG V) :=
  if l.length < f.shape.length then .ub
  else if f.shape.length ≤ 4 then
    match f.setByPartition (Partitions.label2Number width (l.take f.shape.length)) x parts with
    | none => .ub
    | some f' => .ok f' parts
  else
    match Partitions.label2Index width (l.take f.shape.length) parts with
    | .ub => .ub
    | .throw p => .throw p
    | .ok none _ => .ub
    | .ok (some n) p =>
      match setAt f.values n x with
      | none => .ub
      | some vs => .ok ⟨f.shape, vs, f.size⟩ p

/-- pottsg.hxx 284-292 `isPotts`; without values `size() - 1` wraps around and the first access is out of range. -/
def isPotts [DecidableEq V] (f : PottsG V) : Option Bool :=
  match f.values with
  | [] => none
  | v :: vs => some (vs.dropLast.all (fun x => decide (v = x)))

/-- pottsg.hxx 301-317 -/
def sizes (f : PottsG V) : Nat × Nat := (f.shape.length + 1, f.values.length)

/-- pottsg.hxx 319-339 `serialize` -/
def serialize (f : PottsG V) : List Nat × List V := (f.shape.length :: f.shape, f.values)

/-- pottsg.hxx 341-363 `deserialize` -/
def deserialize (zero : V) (ix : List Nat) (vs : List V) (parts : List Nat) : Outcome (List Nat) (PottsG V) :=
  match ix with
  | [] => .ub
  | dim :: ix =>
    match bellNumber dim, readShape dim ix with
    | some b, some shape => if b ≤ vs.length then makeValues zero shape (vs.take b) parts else .ub
    | _, _ => .ub

end PottsG

/-! ### Announced sizes of the index and value sequences of the other classes -/

/-- potts.hxx 148-164 -/
def Potts.sizes (_f : Potts V) : Nat × Nat := (2, 2)
/-- pottsn.hxx 135-153 -/
def PottsN.sizes (f : PottsN V) : Nat × Nat := (f.shape.length + 1, 2)
/-- constant.hxx 142-156 -/
def Constant.sizes (f : Constant V) : Nat × Nat := (f.shape.length + 1, 1)
/-- absolute_difference.hxx 118-134, squared_difference.hxx 120-137 -/
def Difference.sizes (_f : Difference V) : Nat × Nat := (2, 1)
/-- truncated_absolute_difference.hxx 116-130, truncated_squared_difference.hxx 119-134 -/
def Truncated.sizes (_f : Truncated V) : Nat × Nat := (2, 2)

end Functions
end OpenGM
