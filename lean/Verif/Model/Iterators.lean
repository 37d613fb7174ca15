import Verif.Model.GraphicalModel
import Verif.Spec.Iterators
/-
Model of include/opengm/utilities/accessor_iterator.hxx (AccessorIterator), include/opengm/utilities/shape_accessor.hxx (the accessors) and
include/opengm/utilities/subsequence_iterator.hxx (SubsequenceIterator). Assertions are not checked (NDEBUG). `N` is the number of values of size_t (2^64);
arithmetic of indices is modulo N. Pointers to sequences that are only compared are numbers.
-/
namespace OpenGM
namespace Iterators
open Spec.Iterators (Move)
variable {V α : Type}

/-- Arithmetic of size_t (accessor_iterator.hxx 119, subsequence_iterator.hxx 52). -/
def wrap (N : Nat) (x : Int) : Nat := (x % (N : Int)).toNat

/-- Conversion of size_t to a signed number of the same width (subsequence_iterator.hxx 74). -/
def signed (N : Nat) (x : Nat) : Int := if 2 * x < N then (x : Int) else (x : Int) - N

/-! ### accessors -/

/-- accessor_iterator.hxx 17-27: the interface of an accessor: size, operator[] and operator[] const (`none` is undefined), and whether operator[] const returns
a value, not a reference. -/
structure Accessor (α : Type) where
  size : Nat
  get : Nat → Option α
  getConst : Nat → Option α
  byValue : Bool

/-- shape_accessor.hxx 9-40 `FunctionShapeAccessor`; `none` is the null pointer. -/
def functionShape (f : Option (Fn V)) : Accessor Nat :=
  { size := match f with | none => 0 | some f => f.shape.length
    get := fun j => f.bind (fun f => f.shape[j]?)
    getConst := fun j => f.bind (fun f => f.shape[j]?)
    byValue := true }

/-- graphicalmodel_factor.hxx 519-527 `numberOfLabels(j)`; an index out of range, which reads the variables of other factors, counts as undefined. -/
def numberOfLabels (gm : GM V) (f : FactorRec) (j : Nat) : Option Nat :=
  if j < f.visSize then (gm.visAt f j).bind (fun v => gm.numLabels[v]?) else none

/-- graphicalmodel_factor.hxx 536-544 `variableIndex(j)`; an index out of range, which reads the variables of other factors, counts as undefined. -/
def variableIndex (gm : GM V) (f : FactorRec) (j : Nat) : Option Nat := if j < f.visSize then gm.visAt f j else none

/-- shape_accessor.hxx 42-68 `FactorShapeAccessor`. -/
def factorShape (gm : GM V) (f : Option FactorRec) : Accessor Nat :=
  { size := match f with | none => 0 | some f => f.visSize
    get := fun j => f.bind (fun f => numberOfLabels gm f j)
    getConst := fun j => f.bind (fun f => numberOfLabels gm f j)
    byValue := true }

/-- shape_accessor.hxx 72-107 `SubsetAccessor`. -/
def subset (vars : List Nat) (labels : List Nat) : Accessor Nat :=
  { size := vars.length
    get := fun j => (vars[j]?).bind (fun v => labels[v]?)
    getConst := fun j => (vars[j]?).bind (fun v => labels[v]?)
    byValue := true }

/-- shape_accessor.hxx 111-142 `GmLabelFactorLabelAccessor`. -/
def factorLabels (gm : GM V) (f : Option FactorRec) (labels : List Nat) : Accessor Nat :=
  { size := match f with | none => 0 | some f => f.visSize
    get := fun j => f.bind (fun f => (variableIndex gm f j).bind (fun v => labels[v]?))
    getConst := fun j => f.bind (fun f => (variableIndex gm f j).bind (fun v => labels[v]?))
    byValue := true }

/-- shape_accessor.hxx 146-173 `FactorVariablesAccessor`: 164-165 the operator[] that is not const returns the number of labels, 166-167 the other one the
variable. -/
def factorVariables (gm : GM V) (f : Option FactorRec) : Accessor Nat :=
  { size := match f with | none => 0 | some f => f.visSize
    get := fun j => f.bind (fun f => numberOfLabels gm f j)
    getConst := fun j => f.bind (fun f => variableIndex gm f j)
    byValue := true }

/-! ### AccessorIterator -/

/-- accessor_iterator.hxx 118-119. -/
structure AIter (α : Type) where
  acc : Accessor α
  index : Nat

namespace AIter

/-- accessor_iterator.hxx 139-149. -/
def eq (it other : AIter α) : Bool := decide (other.index = it.index)
/-- accessor_iterator.hxx 151-161. -/
def ne (it other : AIter α) : Bool := decide (other.index ≠ it.index)
/-- accessor_iterator.hxx 163-173. -/
def le (it other : AIter α) : Bool := decide (it.index ≤ other.index)
/-- accessor_iterator.hxx 175-185. -/
def ge (it other : AIter α) : Bool := decide (it.index ≥ other.index)
/-- accessor_iterator.hxx 187-197. -/
def lt (it other : AIter α) : Bool := decide (it.index < other.index)
/-- accessor_iterator.hxx 199-209. -/
def gt (it other : AIter α) : Bool := decide (it.index > other.index)

/-- accessor_iterator.hxx 235-241 `operator*()`. -/
def deref (it : AIter α) : Option α := it.acc.get it.index
/-- accessor_iterator.hxx 227-233 `operator*() const`: a reference to what the accessor returns; undefined if that is a value, which is gone. -/
def derefConst (it : AIter α) : Option α := if it.acc.byValue then none else it.acc.getConst it.index
/-- accessor_iterator.hxx 254-263 `operator[](j)`. -/
def at' (N : Nat) (it : AIter α) (j : Nat) : Option α := it.acc.get (wrap N (it.index + j))
/-- accessor_iterator.hxx 243-252 `operator[](j) const`. -/
def atConst (N : Nat) (it : AIter α) (j : Nat) : Option α := if it.acc.byValue then none else it.acc.getConst (wrap N (it.index + j))

/-- accessor_iterator.hxx 265-274. -/
def inc (N : Nat) (it : AIter α) : AIter α := if it.index < it.acc.size then { it with index := wrap N (it.index + 1) } else it
/-- accessor_iterator.hxx 276-289: the value and the new state. -/
def postInc (N : Nat) (it : AIter α) : AIter α × AIter α := if it.index < it.acc.size then (it, { it with index := wrap N (it.index + 1) }) else (it, it)
/-- accessor_iterator.hxx 291-299. -/
def dec (N : Nat) (it : AIter α) : AIter α := { it with index := wrap N ((it.index : Int) - 1) }
/-- accessor_iterator.hxx 301-310: the value and the new state. -/
def postDec (N : Nat) (it : AIter α) : AIter α × AIter α := (it, { it with index := wrap N ((it.index : Int) - 1) })
/-- accessor_iterator.hxx 312-327 `operator+=`. -/
def add (N : Nat) (it : AIter α) (j : Nat) : AIter α :=
  if wrap N (it.index + j) ≤ it.acc.size then { it with index := wrap N (it.index + j) } else { it with index := it.acc.size }
/-- accessor_iterator.hxx 329-340 `operator-=`. -/
def sub (N : Nat) (it : AIter α) (j : Nat) : AIter α := { it with index := wrap N ((it.index : Int) - j) }
/-- accessor_iterator.hxx 349-359 (and 388-397, `j + it`). -/
def plus (N : Nat) (it : AIter α) (j : Nat) : AIter α := add N it j
/-- accessor_iterator.hxx 361-371. -/
def minus (N : Nat) (it : AIter α) (j : Nat) : AIter α := sub N it j
/-- accessor_iterator.hxx 373-384: the signed difference is returned as size_t. -/
def diff (N : Nat) (it other : AIter α) : Nat := wrap N ((it.index : Int) - other.index)

/-- A move (accessor_iterator.hxx 265-371); distances are converted to size_t. -/
def move (N : Nat) (it : AIter α) : Move → AIter α
  | .inc => inc N it
  | .postInc => (postInc N it).2
  | .dec => dec N it
  | .postDec => (postDec N it).2
  | .add n => add N it (wrap N n)
  | .sub n => sub N it (wrap N n)
  | .plus n => plus N it (wrap N n)
  | .minus n => minus N it (wrap N n)

/-- The loop `for(; it != end; ++it) out.push_back(*it)`, with a number of rounds that suffices for iterators of one sequence. -/
def collectLoop (N : Nat) (stop : AIter α) : Nat → AIter α → List α → Option (List α)
  | 0, _, _ => none
  | k + 1, it, out =>
    if it.ne stop then
      match it.deref with
      | none => none
      | some x => collectLoop N stop k (it.inc N) (out ++ [x])
    else some out

end AIter

/-- `begin` is the iterator with index 0, `end` the one with the size as index (function_properties_base.hxx 259-271; graphicalmodel_factor.hxx 198-219, where line 209 names a type that is not declared: the iterator type is meant). -/
def collect (N : Nat) (acc : Accessor α) : Option (List α) := AIter.collectLoop N ⟨acc, acc.size⟩ (acc.size + 1) ⟨acc, 0⟩ []

/-! ### SubsequenceIterator -/

/-- subsequence_iterator.hxx 49-52: the sequences that the two iterators point to, their addresses, and the position. -/
structure SIter (α : Type) where
  sequence : List α
  indices : List Nat
  sequenceBegin : Nat
  indicesBegin : Nat
  pos : Nat

namespace SIter

/-- subsequence_iterator.hxx 55-57. -/
def eq (a b : SIter α) : Bool := decide (a.sequenceBegin = b.sequenceBegin) && decide (a.indicesBegin = b.indicesBegin) && decide (a.pos = b.pos)
/-- subsequence_iterator.hxx 58-60. -/
def ne (a b : SIter α) : Bool := decide (a.sequenceBegin ≠ b.sequenceBegin) || decide (a.indicesBegin ≠ b.indicesBegin) || decide (a.pos ≠ b.pos)
/-- subsequence_iterator.hxx 61-63. -/
def lt (a b : SIter α) : Bool := decide (a.sequenceBegin = b.sequenceBegin) && decide (a.indicesBegin = b.indicesBegin) && decide (a.pos < b.pos)
/-- subsequence_iterator.hxx 64-66. -/
def gt (a b : SIter α) : Bool := decide (a.sequenceBegin = b.sequenceBegin) && decide (a.indicesBegin = b.indicesBegin) && decide (a.pos > b.pos)
/-- subsequence_iterator.hxx 67-69. -/
def le (a b : SIter α) : Bool := decide (a.sequenceBegin = b.sequenceBegin) && decide (a.indicesBegin = b.indicesBegin) && decide (a.pos ≤ b.pos)
/-- subsequence_iterator.hxx 70-72. -/
def ge (a b : SIter α) : Bool := decide (a.sequenceBegin = b.sequenceBegin) && decide (a.indicesBegin = b.indicesBegin) && decide (a.pos ≥ b.pos)

/-- subsequence_iterator.hxx 73-75: the difference of two size_t as signed number. -/
def diff (N : Nat) (a b : SIter α) : Int := signed N (wrap N ((a.pos : Int) - b.pos))

/-- subsequence_iterator.hxx 377-381: `++it`. -/
def inc (N : Nat) (it : SIter α) : SIter α := { it with pos := wrap N (it.pos + 1) }
/-- subsequence_iterator.hxx 383-386: `it++`: the value and the new state. -/
def postInc (N : Nat) (it : SIter α) : SIter α × SIter α := (it, { it with pos := wrap N (it.pos + 1) })
/-- subsequence_iterator.hxx 388-391: `it + n`; n is converted to size_t. -/
def plus (N : Nat) (it : SIter α) (n : Int) : SIter α := { it with pos := wrap N (it.pos + n) }
/-- subsequence_iterator.hxx 393-397: `it += n`. -/
def add (N : Nat) (it : SIter α) (n : Int) : SIter α := { it with pos := wrap N (it.pos + n) }
/-- subsequence_iterator.hxx 399-403: `--it`. -/
def dec (N : Nat) (it : SIter α) : SIter α := { it with pos := wrap N ((it.pos : Int) - 1) }
/-- subsequence_iterator.hxx 405-408: `it--`: the value and the new state. -/
def postDec (N : Nat) (it : SIter α) : SIter α × SIter α := (it, { it with pos := wrap N ((it.pos : Int) - 1) })
/-- subsequence_iterator.hxx 410-413: `it - n`. -/
def minus (N : Nat) (it : SIter α) (n : Int) : SIter α := { it with pos := wrap N ((it.pos : Int) - n) }
/-- subsequence_iterator.hxx 415-419: `it -= n`. -/
def sub (N : Nat) (it : SIter α) (n : Int) : SIter α := { it with pos := wrap N ((it.pos : Int) - n) }

/-- subsequence_iterator.hxx 421-429: `*it` and `it->`. -/
def deref (it : SIter α) : Option α := (it.indices[it.pos]?).bind (fun i => it.sequence[i]?)
/-- subsequence_iterator.hxx 431-434: `it[n]`. -/
def at' (N : Nat) (it : SIter α) (n : Int) : Option α := (it.indices[wrap N (it.pos + n)]?).bind (fun i => it.sequence[i]?)

/-- A move (subsequence_iterator.hxx 377-419). -/
def move (N : Nat) (it : SIter α) : Move → SIter α
  | .inc => inc N it
  | .postInc => (postInc N it).2
  | .dec => dec N it
  | .postDec => (postDec N it).2
  | .add n => add N it n
  | .sub n => sub N it n
  | .plus n => plus N it n
  | .minus n => minus N it n

end SIter
end Iterators
end OpenGM
