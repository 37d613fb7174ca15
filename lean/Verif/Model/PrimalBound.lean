import Verif.Model.GraphicalModel
import Verif.Spec.PrimalBound
/-
Model of include/opengm/inference/auxiliary/primal_lpbound.hxx (PrimalLPBound) and of VariableToFactorMapping in include/opengm/inference/trws/utilities2.hxx 33-62.
The transportation solver is a parameter: its result and solution are a function of the factor and of the two sequences of weights, and it does not throw. Its
method `Init` stores the address of the wrapped factor it gets (transportationsolver.hxx 722), and `Solve` reads the object at this address (1096);
`getFactorValue` passes a temporary, whose lifetime ends before `Solve` is called. The parameter `lives` says whether the memory of the temporary can be read
nevertheless: by the rules of the language it cannot. ResetBuffer, which does not compile when it is used, is not modelled.
-/
namespace OpenGM
namespace PrimalBound
variable {R S : Type}

/-- The environment: the mark for values that are not buffered (`std::numeric_limits<ValueType>::max()`, line 125), the transportation solver, and whether the
memory of a temporary object stays readable. -/
structure Env (R S : Type) where
  nan : R
  solve : Nat → List R → List R → R × S
  lives : Bool

/-- 95-102: the data members; `last` is `_lastActiveSolver` (InvalidIndex is none), `sol` the solution the solver holds. -/
structure Bound (R S : Type) where
  unary : List (List R)
  mapping : List (Option Nat)
  buffered : List R
  last : Option Nat
  total : R
  sol : Option S

/-- utilities2.hxx 54-59: the first factor of each single variable (the error for a second one is constructed but not thrown). -/
def mappingLoop (gm : GM R) : List FactorRec → Nat → List (Option Nat) → Option (List (Option Nat))
  | [], _, m => some m
  | f :: fs, i, m =>
    if f.visSize = 1 then
      match gm.visAt f 0 with
      | none => none
      | some v =>
        match m[v]? with
        | none => none
        | some none => mappingLoop gm fs (i + 1) (m.set v (some i))
        | some (some _) => mappingLoop gm fs (i + 1) m
    else mappingLoop gm fs (i + 1) m

/-- 108-114: count the unary factors of each variable. -/
def countLoop (gm : GM R) : List FactorRec → List Nat → Option (List Nat)
  | [], c => some c
  | f :: fs, c =>
    if f.visSize = 1 then
      match gm.visAt f 0 with
      | none => none
      | some v =>
        match c[v]? with
        | none => none
        | some k => countLoop gm fs (c.set v (k + 1))
    else countLoop gm fs c

/-- 128-146: the constructor, with 105-119 `CheckDuplicateUnaryFactors`. -/
def construct [Zero R] (e : Env R S) (gm : GM R) : Outcome Unit (Bound R S) :=
  match mappingLoop gm gm.factors 0 (List.replicate gm.numberOfVariables none) with
  | none => .ub
  | some mapping =>
    match countLoop gm gm.factors (List.replicate gm.numberOfVariables 0) with
    | none => .ub
    | some counts =>
      if counts.countP (fun k => decide (k > 1)) ≠ 0 then .throw ()
      else .ok ⟨gm.numLabels.map (fun n => List.replicate n 0), mapping, List.replicate gm.numberOfFactors e.nan, none, e.nan, none⟩ ()

/-- 156-163: mark the values of the factors of a variable as not buffered. -/
def invalidate (nan : R) : List Nat → List R → Option (List R)
  | [], b => some b
  | f :: fs, b =>
    match setAt b f nan with
    | none => none
    | some b' => invalidate nan fs b'

/-- 148-164 `setVariable(var, inputBegin)`; `input` are the values that can be read. -/
def setVariable (e : Env R S) (gm : GM R) (s : Bound R S) (var : Nat) (input : List R) : Option (Bound R S) :=
  match s.unary[var]?, gm.adj[var]? with
  | some u, some fs =>
    if u.length ≤ input.length then
      match invalidate e.nan fs s.buffered with
      | none => none
      | some b => some { s with total := e.nan, unary := s.unary.set var (input.take u.length), buffered := b }
    else none
  | _, _ => none

/-- 166-172 `getVariable`. -/
def getVariable (s : Bound R S) (var : Nat) : Option (List R) := s.unary[var]?

/-- 174-198 `getFactorValue`. The check of the order (174-180) constructs an exception but does not throw it; the second
variable of a factor of one variable is out of range. -/
def getFactorValue [DecidableEq R] (e : Env R S) (gm : GM R) (s : Bound R S) (factorId : Nat) : Option (R × Bound R S) :=
  match s.buffered[factorId]? with
  | none => none
  | some b =>
    if b = e.nan then
      match gm.factors[factorId]? with
      | none => none
      | some f =>
        match gm.visAt f 0, (if 1 < f.visSize then gm.visAt f 1 else none) with
        | some var0, some var1 =>
          match s.unary[var0]?, s.unary[var1]? with
          | some u0, some u1 =>
            if e.lives then
              some ((e.solve factorId u0 u1).1,
                { s with buffered := s.buffered.set factorId (e.solve factorId u0 u1).1, last := some factorId, sol := some (e.solve factorId u0 u1).2 })
            else none
          | _, _ => none
        | _, _ => none
    else some (b, s)

/-- 200-210 `getFactorVariable`; asking the solver before it has solved a problem is undefined. -/
def getFactorVariable [DecidableEq R] (e : Env R S) (gm : GM R) (s : Bound R S) (factorId : Nat) : Option (S × Bound R S) :=
  match (if s.last ≠ some factorId then (getFactorValue e gm s factorId).map Prod.snd else some s) with
  | none => none
  | some s' => s'.sol.map (fun x => (x, s'))

/-- 229-230: the sum over the labels. -/
def sumLoop [Add R] [Mul R] (gm : GM R) (f : FactorRec) : Nat → List R → R → Option R
  | _, [], sum => some sum
  | i, x :: xs, sum =>
    match gm.callFactor f [i] with
    | none => none
    | some y => sumLoop gm f (i + 1) xs (sum + x * y)

/-- 212-234 `getVariableValue`. -/
def getVariableValue [DecidableEq R] [Zero R] [Add R] [Mul R] (e : Env R S) (gm : GM R) (s : Bound R S) (varId : Nat) : Option (R × Bound R S) :=
  match s.mapping[varId]? with
  | none => none
  | some none => some (0, s)
  | some (some factorId) =>
    match s.buffered[factorId]? with
    | none => none
    | some b =>
      if b ≠ e.nan then some (b, s)
      else
        match s.unary[varId]?, gm.factors[factorId]? with
        | some uf, some f =>
          match sumLoop gm f 0 uf 0 with
          | none => none
          | some sum => some (sum, { s with buffered := s.buffered.set factorId sum })
        | _, _ => none

/-- 242-251: the loop of `getTotalValue` over the factors; the sum is kept in the data member. -/
def totalLoop [DecidableEq R] [Zero R] [Add R] [Mul R] (e : Env R S) (gm : GM R) : List FactorRec → Nat → Bound R S → Outcome (Bound R S) Unit
  | [], _, s => .ok () s
  | f :: fs, j, s =>
    if f.visSize = 1 then
      match gm.visAt f 0 with
      | none => .ub
      | some v =>
        match getVariableValue e gm s v with
        | none => .ub
        | some (r, s') => totalLoop e gm fs (j + 1) { s' with total := s'.total + r }
    else if f.visSize = 2 then
      match getFactorValue e gm s j with
      | none => .ub
      | some (r, s') => totalLoop e gm fs (j + 1) { s' with total := s'.total + r }
    else .throw s

/-- 236-254 `getTotalValue`. -/
def getTotalValue [DecidableEq R] [Zero R] [Add R] [Mul R] (e : Env R S) (gm : GM R) (s : Bound R S) : Outcome (Bound R S) R :=
  if s.total = e.nan then
    match totalLoop e gm gm.factors 0 { s with total := 0 } with
    | .ok _ s' => .ok s'.total s'
    | .throw s' => .throw s'
    | .ub => .ub
  else .ok s.total s

/-- One call. -/
def call [DecidableEq R] [Zero R] [Add R] [Mul R] (e : Env R S) (gm : GM R) (s : Bound R S) : Spec.PrimalBound.Call R → Outcome (Bound R S) (Spec.PrimalBound.Answer R S)
  | .setVariable v values =>
    match setVariable e gm s v values with
    | some s' => .ok .nothing s'
    | none => .ub
  | .getVariable v =>
    match getVariable s v with
    | some u => .ok (.weights u) s
    | none => .ub
  | .getVariableValue v =>
    match getVariableValue e gm s v with
    | some (r, s') => .ok (.value r) s'
    | none => .ub
  | .getFactorValue j =>
    match getFactorValue e gm s j with
    | some (r, s') => .ok (.value r) s'
    | none => .ub
  | .getTotalValue =>
    match getTotalValue e gm s with
    | .ok r s' => .ok (.value r) s'
    | .throw s' => .throw s'
    | .ub => .ub
  | .getFactorVariable j =>
    match getFactorVariable e gm s j with
    | some (x, s') => .ok (.solution x) s'
    | none => .ub

/-- A history of calls and its answers. -/
def run [DecidableEq R] [Zero R] [Add R] [Mul R] (e : Env R S) (gm : GM R) (s : Bound R S) : List (Spec.PrimalBound.Call R) → Outcome (Bound R S) (List (Spec.PrimalBound.Answer R S))
  | [] => .ok [] s
  | c :: cs =>
    match call e gm s c with
    | .ub => .ub
    | .throw s' => .throw s'
    | .ok a s' =>
      match run e gm s' cs with
      | .ok as s'' => .ok (a :: as) s''
      | .throw s'' => .throw s''
      | .ub => .ub

end PrimalBound
end OpenGM
