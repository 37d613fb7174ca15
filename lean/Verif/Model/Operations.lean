import Mathlib.Order.Defs.LinearOrder
import Mathlib.Analysis.SpecialFunctions.Log.Basic
/-
Models of include/opengm/operations/*.hxx and utilities/accumulation.hxx. One value type for all arguments. `op`, `iop` are the
in-place forms (the result is the new value of `out`), `op3`, `iop3` the forms with three arguments; `out` is passed because the
code may read it. Numbers are abstract (any type with the operations named in the class brackets); floats are not modelled.
-/
namespace OpenGM
namespace Ops

namespace Adder
variable {V : Type} [Add V] [Sub V] [Zero V] [Mul V] [Div V]

/-- adder.hxx 12-20 -/
def neutral : V := 0
/-- adder.hxx 22-30 -/
def ineutral : V := 0
/-- adder.hxx 32-35 -/
def op (in_ out : V) : V := out + in_
/-- adder.hxx 37-40 -/
def op3 (in1 in2 _out : V) : V := in1 + in2
/-- adder.hxx 42-45 -/
def iop (in_ out : V) : V := out - in_
/-- adder.hxx 47-50 -/
def iop3 (in1 in2 _out : V) : V := in1 - in2
/-- adder.hxx 56-59 -/
def hop (in_ out : V) : V := out * in_
/-- adder.hxx 66-69 -/
def ihop (in_ out : V) : V := out / in_

end Adder

namespace Multiplier
variable {V : Type} [Mul V] [Div V] [One V]

/-- multiplier.hxx 14-22 -/
def neutral : V := 1
/-- multiplier.hxx 24-32 -/
def ineutral : V := 1
/-- multiplier.hxx 34-37 -/
def op (in_ out : V) : V := out * in_
/-- multiplier.hxx 39-42 -/
def op3 (in1 in2 _out : V) : V := in1 * in2
/-- multiplier.hxx 44-47; a division by zero is not modelled (`V` is a field in the theorems, with the divisor nonzero) -/
def iop (in_ out : V) : V := out / in_
/-- multiplier.hxx 49-52 -/
def iop3 (in1 in2 _out : V) : V := in1 / in2

end Multiplier

namespace Minimizer
variable {V : Type} [LinearOrder V]

/-- minimizer.hxx 14-21; `infinity` is `std::numeric_limits<T>::infinity()`, which is 0 for integers. -/
def neutral (infinity : V) : V := infinity
/-- minimizer.hxx 32-35 -/
def op (in1 out : V) : V := if out < in1 then out else in1
/-- minimizer.hxx 36-39 -/
def op3 (in1 in2 _out : V) : V := if in1 < in2 then in1 else in2
/-- minimizer.hxx 41-44 -/
def iop (in1 out : V) : V := if in1 < out then out else in1
/-- minimizer.hxx 45-48 -/
def iop3 (in1 in2 _out : V) : V := if in2 < in1 then in1 else in2
/-- minimizer.hxx 54-57 -/
def bop (in1 in2 : V) : Bool := decide (in1 < in2)
/-- minimizer.hxx 59-62 -/
def ibop (in1 in2 : V) : Bool := decide (in2 < in1)

end Minimizer

namespace Maximizer
variable {V : Type} [LinearOrder V]

/-- maximizer.hxx 12-20; `minusInfinity` is `-std::numeric_limits<T>::infinity()`. -/
def neutral (minusInfinity : V) : V := minusInfinity
/-- maximizer.hxx 32-35 -/
def op (in1 out : V) : V := if in1 < out then out else in1
/-- maximizer.hxx 37-40 -/
def op3 (in1 in2 _out : V) : V := if in2 < in1 then in1 else in2
/-- maximizer.hxx 42-45 -/
def iop (in1 out : V) : V := if out < in1 then out else in1
/-- maximizer.hxx 47-50 -/
def iop3 (in1 in2 _out : V) : V := if in1 < in2 then in1 else in2
/-- maximizer.hxx 56-59 -/
def bop (in1 in2 : V) : Bool := decide (in2 < in1)
/-- maximizer.hxx 61-64 -/
def ibop (in1 in2 : V) : Bool := decide (in1 < in2)

end Maximizer

namespace Integrator
variable {V : Type} [Add V] [Sub V] [Zero V]

/-- integrator.hxx 14-22 -/
def neutral : V := 0
/-- integrator.hxx 34-37 -/
def op (in1 out : V) : V := out + in1
/-- integrator.hxx 39-42 (the arguments are passed by value) -/
def op3 (in1 in2 _out : V) : V := in1 + in2
/-- integrator.hxx 44-47: `out - in1;` computes the difference and drops it. -/
def iop (_in1 out : V) : V := out
/-- integrator.hxx 49-52 -/
def iop3 (in1 in2 _out : V) : V := in1 - in2
/-- integrator.hxx 58-61 -/
def bop (_in1 _in2 : V) : Bool := false

end Integrator

namespace Logsumexp

/-- logsumexp.hxx 35-42, over the real numbers. -/
noncomputable def op (in1 out : ℝ) : ℝ := max in1 out + Real.log (1 + Real.exp (min in1 out - max in1 out))
/-- logsumexp.hxx 45-52: reads `out` where `in2` is meant. -/
noncomputable def op3 (in1 _in2 out : ℝ) : ℝ := max in1 out + Real.log (1 + Real.exp (min in1 out - max in1 out))
/-- logsumexp.hxx 61-64 -/
noncomputable def iop3 (in1 in2 _out : ℝ) : ℝ := Real.log (Real.exp in1 - Real.exp in2)

end Logsumexp

namespace And
/-- and.hxx 12-20 for `bool` -/
def neutral : Bool := true
/-- and.hxx 22-25 for `bool` -/
def op (in_ out : Bool) : Bool := out && in_
/-- and.hxx 31-32 -/
def op3 (in1 in2 _out : Bool) : Bool := in1 && in2
/-- and.hxx 12-15 for an unsigned integer type -/
def neutralNat : Nat := 1
/-- and.hxx 22-25 for an unsigned integer type -/
def opNat (in_ out : Nat) : Nat := out &&& in_
/-- and.hxx 42-43 -/
def bop (in1 in2 : Bool) : Bool := in1 && in2
/-- and.hxx 49-50 -/
def ibop (in1 in2 : Bool) : Bool := !(in1 && in2)
end And

namespace Or
/-- or.hxx 12-20 for `bool` -/
def neutral : Bool := false
/-- or.hxx 32-35 for `bool` -/
def op (in_ out : Bool) : Bool := out || in_
/-- or.hxx 41-42 -/
def op3 (in1 in2 _out : Bool) : Bool := in1 || in2
/-- or.hxx 12-15 for an unsigned integer type -/
def neutralNat : Nat := 0
/-- or.hxx 32-35 for an unsigned integer type -/
def opNat (in_ out : Nat) : Nat := out ||| in_
/-- or.hxx 52-53 -/
def bop (in1 in2 : Bool) : Bool := in1 || in2
/-- or.hxx 59-60 -/
def ibop (in1 in2 : Bool) : Bool := !(in1 || in2)
end Or

namespace Weighted
variable {V : Type}

/-- weightedoperations.hxx 11-22 `weightedMean<OP>(in1, in2, w, out)`, with `out` another object than `in2`. -/
def weightedMean (op iop hop : V → V → V) (in1 in2 w : V) : V := op in2 (hop w (iop in2 in1))
/-- weightedoperations.hxx 11-22, with `out` the same object as `in2` (excluded by an assertion only). -/
def weightedMeanAliased (op iop hop : V → V → V) (in1 w : V) : V :=
  let out := in1
  let out := iop out out
  let out := hop w out
  op out out
/-- weightedoperations.hxx 25-34 `wop` -/
def wop (op hop : V → V → V) (in_ w out : V) : V := op (hop w in_) out
/-- weightedoperations.hxx 37-47 `iwop`; `inv` is `1/w` -/
def iwop (op hop : V → V → V) (inv : V → V) (in_ w out : V) : V := op (hop (inv w) in_) out
/-- weightedoperations.hxx 50-59 `wiop` -/
def wiop (iop hop : V → V → V) (in_ w out : V) : V := iop (hop w in_) out
/-- weightedoperations.hxx 62-72 `iwiop` -/
def iwiop (iop hop : V → V → V) (inv : V → V) (in_ w out : V) : V := iop (hop (inv w) in_) out

end Weighted
end Ops

namespace Accumulation
variable {V S : Type}

/-- accumulation.hxx 31-33: data members; `state_` is a sequence of labels. -/
structure Acc (V S : Type) where
  value : V
  state : List S

/-- accumulation.hxx 36-41: constructor -/
def construct (neutral : V) : Acc V S := ⟨neutral, []⟩

/-- accumulation.hxx 98-104 `clear` -/
def clear (neutral : V) (_a : Acc V S) : Acc V S := ⟨neutral, []⟩

/-- accumulation.hxx 106-119 and 121-137 `operator()(value, state)`; `op3 in1 in2 out` is called with `value_` for `in2` and
`out`. -/
def feed (bop : V → V → Bool) (op3 : V → V → V → V) (value : V) (state : List S) (a : Acc V S) : Acc V S :=
  ⟨op3 value a.value a.value, if bop value a.value then state else a.state⟩

/-- accumulation.hxx 139-147 `operator()(value)` -/
def feedValue (op3 : V → V → V → V) (value : V) (a : Acc V S) : Acc V S := ⟨op3 value a.value a.value, a.state⟩

/-- accumulation.hxx 57-62 `neutral()`: returns the size of the state, converted to a value. -/
def neutral (ofNat : Nat → V) (a : Acc V S) : V := ofNat a.state.length

/-- Calls on an Accumulation object. -/
inductive Call (V S : Type) where
  | feed (value : V) (state : List S)
  | feedValue (value : V)
  | clear

/-- One call. -/
def step (bop : V → V → Bool) (op3 : V → V → V → V) (neutral : V) (a : Acc V S) : Call V S → Acc V S
  | .feed v s => feed bop op3 v s a
  | .feedValue v => feedValue op3 v a
  | .clear => clear neutral a

/-- An object after a history of calls. -/
def run (bop : V → V → Bool) (op3 : V → V → V → V) (neutral : V) (calls : List (Call V S)) : Acc V S :=
  calls.foldl (step bop op3 neutral) (construct neutral)

end Accumulation
end OpenGM
