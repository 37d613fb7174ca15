import Verif.Model.Basic
/-
Model of include/opengm/datastructures/randomaccessset.hxx : a set stored as a sorted vector.
The element order is given by the `Compare` function object, modelled as a Boolean function `lt`.
-/
namespace OpenGM.RandomAccessSet

variable {K : Type} (lt : K → K → Bool)

/-- randomaccessset.hxx 513-533 `lower_bound` = `std::lower_bound(vector_.begin(), vector_.end(), key, compare_)`.
Simplification: the standard algorithm is modelled by its contract on partitioned ranges: the number of leading
elements `e` with `compare_(e,key)`. -/
def lowerBound (v : List K) (key : K) : Nat := (v.takeWhile (fun e => lt e key)).length

/-- randomaccessset.hxx 322-333 `insert(value)`; returns the new vector, the position and whether it was new. -/
def insert (v : List K) (value : K) : List K × Nat × Bool :=
  let i := lowerBound lt v value
  match v[i]? with
  | none => (v.insertIdx i value, i, true)
  | some e => if lt value e then (v.insertIdx i value, i, true) else (v, i, false)

/-- randomaccessset.hxx 342-352 `insert(first,last)`. -/
def insertRange (v : List K) (values : List K) : List K :=
  values.foldl (fun acc x => (insert lt acc x).1) v

/-- randomaccessset.hxx 464-475, 483-494 `find(value)`: position, or `end()` (= size) if not found. -/
def find (v : List K) (value : K) : Nat :=
  let i := lowerBound lt v value
  match v[i]? with
  | none => i
  | some e => if lt value e then v.length else i

/-- randomaccessset.hxx 389-401 `erase(x)`: new vector and number of erased elements. -/
def erase (v : List K) (x : K) : List K × Nat :=
  let i := find lt v x
  if i ≠ v.length then (v.eraseIdx i, 1) else (v, 0)

/-- randomaccessset.hxx 376-383 `erase(position)`; erasing at `end()` or beyond is undefined. -/
def eraseAt (v : List K) (i : Nat) : Option (List K) :=
  if i < v.length then some (v.eraseIdx i) else none

/-- randomaccessset.hxx 435-438 `clear`. -/
def clear (_ : List K) : List K := []

/-- randomaccessset.hxx 500-507 `count(value)`: 1 iff found. -/
def count (v : List K) (value : K) : Nat := if find lt v value ≠ v.length then 1 else 0

end OpenGM.RandomAccessSet
