import Verif.Model.Basic
import Verif.Model.FactorOps
/-
Model of include/opengm/functions/view_fix_variables_function.hxx (class ViewFixVariablesFunction).

The factor the view refers to is an operand in the sense of Model/FactorOps: a shape (`numberOfLabels(j)`) and access by a label
sequence. `size()` of a factor is the product of its shape (graphicalmodel_factor.hxx 932-942).
-/
namespace OpenGM
namespace ViewFix
open FactorOps (Fn)
variable {V : Type}

/-- view_fix_variables_function.hxx 88-94 (and 123-129, 163-168): the loop that computes `add` for the free position `ind`: positions in the
order of the list, `ind+add` is compared. Returns `ind + add`. -/
def shift : List (Nat × Nat) → Nat → Nat
  | [], k => k
  | (p, _) :: pls, k => if p ≤ k then shift pls (k + 1) else shift pls k

/-- The object: `factor_`, `positionAndLabels_`, `lookUp_`. The mutable members `iteratorBuffer_`, `computedSize_` and `size_` are passed
separately. -/
structure View (V : Type) where
  factor : Fn V
  fixed : List (Nat × Nat)
  lookUp : List Nat

/-- view_fix_variables_function.hxx 70-98, 104-134: constructors. More fixed positions than variables: the length of `lookUp_` underflows
(`none`). -/
def construct (factor : Fn V) (fixed : List (Nat × Nat)) : Option (View V) :=
  if fixed.length ≤ factor.shape.length then
    some ⟨factor, fixed, (List.range (factor.shape.length - fixed.length)).map (fun ind => shift fixed ind)⟩
  else none

/-- view_fix_variables_function.hxx 75: initial content of `iteratorBuffer_`. -/
def initialBuffer (factor : Fn V) : List Nat := List.replicate factor.shape.length 0

/-- view_fix_variables_function.hxx 144-147: copy the labels of the free positions. -/
def fillFree : List Nat → List Nat → List Nat → Option (List Nat)
  | [], _, buf => some buf
  | _ :: _, [], _ => none
  | p :: look, l :: labels, buf =>
    match setAt buf p l with
    | none => none
    | some buf' => fillFree look labels buf'

/-- view_fix_variables_function.hxx 148-151: write the fixed labels. -/
def fillFixed : List (Nat × Nat) → List Nat → Option (List Nat)
  | [], buf => some buf
  | (p, l) :: pls, buf =>
    match setAt buf p l with
    | none => none
    | some buf' => fillFixed pls buf'

/-- view_fix_variables_function.hxx 136-153 `operator()`: value and the content of the mutable buffer afterwards. -/
def call (v : View V) (buf labels : List Nat) : Option (V × List Nat) :=
  match fillFree v.lookUp labels buf with
  | none => none
  | some b1 =>
    match fillFixed v.fixed b1 with
    | none => none
    | some b2 => (v.factor.eval b2).map (fun x => (x, b2))

/-- view_fix_variables_function.hxx 155-171 `shape(index)`. -/
def shapeAt (v : View V) (index : Nat) : Option Nat := v.factor.shape[shift v.fixed index]?

/-- view_fix_variables_function.hxx 173-179 `dimension()`. -/
def dimension (v : View V) : Nat := v.factor.shape.length - v.fixed.length

/-- view_fix_variables_function.hxx 187-190: divide by the extents of the fixed positions (`none`: position out of range or division by 0). -/
def sizeLoop (shape : List Nat) : List (Nat × Nat) → Nat → Option Nat
  | [], s => some s
  | (p, _) :: pls, s =>
    match shape[p]? with
    | none => none
    | some n => if n = 0 then none else sizeLoop shape pls (s / n)

/-- view_fix_variables_function.hxx 181-194 `size()` with the cache (`computedSize_`, `size_`). -/
def size (v : View V) (cache : Bool × Nat) : Option (Nat × (Bool × Nat)) :=
  if cache.1 then some (cache.2, cache)
  else (sizeLoop v.factor.shape v.fixed v.factor.shape.prod).map (fun s => (s, (true, s)))

end ViewFix
end OpenGM
