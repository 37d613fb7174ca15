import Verif.Model.Basic
/-
Model of the functions that refer to factors of another model: include/opengm/functions/view.hxx (ViewFunction), view_convert_function.hxx (ViewConvertFunction), accumulated_view.hxx (AccumulatedViewFunction),
scaled_view.hxx (ScaledViewFunction) and modelviewfunction.hxx (ModelViewFunction). The other model is a list of factors as it is when the function is used; a pointer or reference to a factor is its position. A factor is its numbers of labels
and its operator(), which is `none` where it is undefined (factors are modelled in other files). Assertions are not checked (NDEBUG); integer types are unbounded.
-/
namespace OpenGM
namespace Views
variable {V P : Type}

/-- The part of the interface of a factor that views use (graphicalmodel_factor.hxx: operator(), numberOfLabels, numberOfVariables, size). -/
structure Factor (V : Type) where
  shape : List Nat
  eval : List Nat → Option V

/-- graphicalmodel_factor.hxx: numberOfVariables, the numbers of labels, size. -/
def Factor.info (f : Factor V) : Nat × List Nat × Nat := (f.shape.length, f.shape, f.shape.prod)

/-! ### ViewFunction -/

/-- view.hxx 34 -/
structure View where
  factor : Option Nat

/-- view.hxx 37-41 -/
def View.default : View := ⟨none⟩

/-- view.hxx 43-50 -/
def View.make (i : Nat) : View := ⟨some i⟩

/-- The access through a pointer to a factor. -/
def deref (gm : List (Factor V)) : Option Nat → Option (Factor V)
  | none => none
  | some i => gm[i]?

/-- view.hxx 52-60 -/
def View.eval (gm : List (Factor V)) (v : View) (ls : List Nat) : Option V := (deref gm v.factor).bind (fun f => f.eval ls)

/-- view.hxx 62-81: dimension, shape for all indices, size. -/
def View.info (gm : List (Factor V)) (v : View) : Option (Nat × List Nat × Nat) := (deref gm v.factor).map (fun f => f.info)

/-! ### ViewConvertFunction -/

/-- The operator of the other model. -/
inductive Operator where
  | adder
  | multiplier

/-- The accumulator ACC. -/
inductive Accumulator where
  | minimizer
  | maximizer

/-- What the conversion needs of the number type. -/
structure Arith (V P : Type) where
  cast : V → P
  inv : P → P
  exp : V → P
  neg : V → V
  mul : V → V → V

/-- view_convert_function.hxx 22-23, 34-35, 46-47, 58-59: convert with an inverse temperature. -/
def convert (A : Arith V P) : Operator → Accumulator → V → V → P
  | .multiplier, .maximizer, x, _ => A.cast x
  | .multiplier, .minimizer, x, _ => A.inv (A.cast x)
  | .adder, .maximizer, x, t => A.exp (A.mul t x)
  | .adder, .minimizer, x, t => A.exp (A.mul (A.neg t) x)

/-- view_convert_function.hxx 89-90 -/
structure Convert (V : Type) where
  factor : Option Nat
  inverseTemperature : V

/-- view_convert_function.hxx 93-97 -/
def Convert.default (one : V) : Convert V := ⟨none, one⟩

/-- view_convert_function.hxx 99-106 -/
def Convert.make (one : V) (i : Nat) : Convert V := ⟨some i, one⟩

/-- view_convert_function.hxx 108-116 -/
def Convert.makeT (i : Nat) (t : V) : Convert V := ⟨some i, t⟩

/-- view_convert_function.hxx 118-126 -/
def Convert.eval (A : Arith V P) (o : Operator) (a : Accumulator) (gm : List (Factor V)) (v : Convert V) (ls : List Nat) : Option P :=
  ((deref gm v.factor).bind (fun f => f.eval ls)).map (fun x => convert A o a x v.inverseTemperature)

/-- view_convert_function.hxx 128-147: dimension, shape for all indices, size. -/
def Convert.info (gm : List (Factor V)) (v : Convert V) : Option (Nat × List Nat × Nat) := (deref gm v.factor).map (fun f => f.info)

/-! ### AccumulatedViewFunction -/

/-- accumulated_view.hxx 60 -/
structure Accumulated where
  factors : List (Option Nat)

/-- accumulated_view.hxx 63-66 -/
def Accumulated.default : Accumulated := ⟨[]⟩

/-- accumulated_view.hxx 68-75 -/
def Accumulated.one (i : Nat) : Accumulated := ⟨[some i]⟩

/-- accumulated_view.hxx 77-89 -/
def Accumulated.range (ps : List (Option Nat)) : Accumulated := ⟨ps⟩

/-- accumulated_view.hxx 102-103: the loop. -/
def accumulate (op : V → V → V) (gm : List (Factor V)) (ls : List Nat) : List (Option Nat) → V → Option V
  | [], result => some result
  | p :: ps, result =>
    match (deref gm p).bind (fun f => f.eval ls) with
    | none => none
    | some x => accumulate op gm ls ps (op result x)

/-- accumulated_view.hxx 91-106 -/
def Accumulated.eval (op : V → V → V) (neutral : V) (gm : List (Factor V)) (v : Accumulated) (ls : List Nat) : Option V := accumulate op gm ls v.factors neutral

/-- accumulated_view.hxx 108-133: dimension, shape for all indices, size, all taken from the first factor. -/
def Accumulated.info (gm : List (Factor V)) (v : Accumulated) : Option (Nat × List Nat × Nat) :=
  match v.factors[0]? with
  | none => none
  | some p => (deref gm p).map (fun f => f.info)

/-! ### ScaledViewFunction -/

/-- scaled_view.hxx 32-36; `hasModel` is `gm_ != NULL`. -/
structure Scaled (V : Type) where
  hasModel : Bool
  factorIndex : Nat
  scale : V
  shape : List Nat
  size : Nat

/-- scaled_view.hxx 57-60 and 76-78: the loops that multiply the numbers of labels. -/
def sizeLoop : List Nat → Nat → Nat
  | [], s => s
  | n :: ns, s => sizeLoop ns (s * n)

/-- scaled_view.hxx 43-61 -/
def Scaled.make (gm : List (Factor V)) (i : Nat) (scale : V) : Option (Scaled V) := (gm[i]?).map (fun f => ⟨true, i, scale, f.shape, sizeLoop f.shape 1⟩)

/-- scaled_view.hxx 64-79 -/
def Scaled.ofShape (zero : V) (shape : List Nat) : Scaled V := ⟨false, 0, zero, shape, sizeLoop shape 1⟩

/-- scaled_view.hxx 88-102 -/
def Scaled.eval (mul : V → V → V) (neutral : V) (gm : List (Factor V)) (v : Scaled V) (ls : List Nat) : Option V :=
  if v.hasModel then ((gm[v.factorIndex]?).bind (fun f => f.eval ls)).map (fun x => mul v.scale x) else some neutral

/-- scaled_view.hxx 81-86 and 104-116: dimension, shape, size. -/
def Scaled.info (v : Scaled V) : Nat × List Nat × Nat := (v.shape.length, v.shape, v.size)

/-! ### ModelViewFunction -/

/-- modelviewfunction.hxx 41-48 -/
inductive ViewType where
  | view
  | viewOffset
  | offset

/-- modelviewfunction.hxx 50-54; the array of offsets has the interface of a factor; a pointer that is not set is `none`. -/
structure ModelView (V : Type) where
  factorIndex : Nat
  scale : V
  offset : Option (Factor V)
  viewType : ViewType

/-- modelviewfunction.hxx 62-81 -/
def ModelView.both (i : Nat) (scale : V) (offset : Factor V) : ModelView V := ⟨i, scale, some offset, .viewOffset⟩

/-- modelviewfunction.hxx 87-99 -/
def ModelView.view (i : Nat) (scale : V) : ModelView V := ⟨i, scale, none, .view⟩

/-- modelviewfunction.hxx 103-114 -/
def ModelView.only (zero : V) (offset : Factor V) : ModelView V := ⟨0, zero, some offset, .offset⟩

/-- modelviewfunction.hxx 116-135 -/
def ModelView.eval (mul add : V → V → V) (gm : List (Factor V)) (v : ModelView V) (ls : List Nat) : Option V :=
  match v.viewType with
  | .viewOffset =>
    match (gm[v.factorIndex]?).bind (fun f => f.eval ls), v.offset.bind (fun f => f.eval ls) with
    | some x, some y => some (add (mul v.scale x) y)
    | _, _ => none
  | .view => ((gm[v.factorIndex]?).bind (fun f => f.eval ls)).map (fun x => mul v.scale x)
  | .offset => v.offset.bind (fun f => f.eval ls)

/-- modelviewfunction.hxx 137-186: dimension, shape for all indices, size. -/
def ModelView.info (gm : List (Factor V)) (v : ModelView V) : Option (Nat × List Nat × Nat) :=
  match v.viewType with
  | .viewOffset => v.offset.map (fun f => f.info)
  | .view => (gm[v.factorIndex]?).map (fun f => f.info)
  | .offset => v.offset.map (fun f => f.info)

end Views
end OpenGM
