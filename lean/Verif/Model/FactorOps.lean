import Verif.Model.Marray
import Verif.Model.Walkers
/-
Model of include/opengm/functions/operations/operator.hxx, accumulator.hxx and of the class IndependentFactor
(include/opengm/graphicalmodel/graphicalmodel_factor.hxx).

The operand of an operation is any function: a shape and a read access by label sequence. Results are arrays (ExplicitFunction).
The dispatch on the types of factors (graphicalmodel_factor_operator.hxx, graphicalmodel_factor_accumulator.hxx) is left out: it selects
the function object of the factor and calls the code modelled here. Operands do not alias results. `Marray::operator=` is copying.
-/
namespace OpenGM
namespace FactorOps
open Marray Walkers
variable {V : Type}

/-- A function as operand: `dimension()` is the length of the shape, `size()` their product. -/
structure Fn (V : Type) where
  shape : List Nat
  eval : List Nat → Option V

/-- An array as operand. -/
def ofArr (a : Arr V) : Fn V := ⟨a.geometry.shape, a.get⟩

/-- operator.hxx 72-99: the iterations after the first: append unless equal to the last entry. Lists hold (variable, extent) of what is left
of A and B (the loop increments `ia` or `ib`); `last` is `vic.back()`. The first argument is the number of iterations: the sum of the lengths. -/
def mergeLoop : Nat → List (Nat × Nat) → List (Nat × Nat) → Nat → List (Nat × Nat)
  | 0, _, _, _ => []
  | _ + 1, [], [], _ => []
  | n + 1, [], b :: bs, last => if last ≠ b.1 then b :: mergeLoop n [] bs b.1 else mergeLoop n [] bs last
  | n + 1, a :: as, [], last => if last ≠ a.1 then a :: mergeLoop n as [] a.1 else mergeLoop n as [] last
  | n + 1, a :: as, b :: bs, last =>
    if a.1 ≤ b.1 then (if last ≠ a.1 then a :: mergeLoop n as (b :: bs) a.1 else mergeLoop n as (b :: bs) last)
    else (if last ≠ b.1 then b :: mergeLoop n (a :: as) bs b.1 else mergeLoop n (a :: as) bs last)

/-- operator.hxx 24-107 `computeViandShape`: variables and shape of the result. Reading `a.shape(i)` for a variable list longer than the
dimension is out of range. -/
def computeViandShape (via vib : List Nat) (a b : Fn V) : Option (List Nat × List Nat) :=
  if via.length > a.shape.length ∨ vib.length > b.shape.length then none
  else
    let ea := via.zip a.shape
    let eb := vib.zip b.shape
    let ec := match ea, eb with
      | [], eb => eb
      | ea, [] => ea
      | x :: as, y :: bs => let n := as.length + bs.length + 1
        if x.1 ≤ y.1 then x :: mergeLoop n as (y :: bs) x.1 else y :: mergeLoop n (x :: as) bs y.1
    some (ec.map (fun e => e.1), ec.map (fun e => e.2))

/-- A counting loop that applies `body` at the walker's state and then increments the walker, `n` times. -/
def walkLoop {σ : Type} (next : σ → Option σ) (body : σ → Arr V → Option (Arr V)) : Nat → σ → Arr V → Option (Arr V)
  | 0, _, a => some a
  | n + 1, s, a =>
    match body s a with
    | none => none
    | some a' =>
      match next s with
      | none => none
      | some s' => walkLoop next body n s' a'

/-- `c(coord) = op(x, y)` for two values that may have been read out of range. -/
def assign2 (op : V → V → V) (c : Arr V) (coord : List Nat) : Option V → Option V → Option (Arr V)
  | some x, some y => c.set coord (op x y)
  | _, _ => none

/-- `c(coord) = f(x)`. -/
def assign1 (f : V → V) (c : Arr V) (coord : List Nat) : Option V → Option (Arr V)
  | some x => c.set coord (f x)
  | _ => none

/-- operator.hxx 143-210 `BinaryOperationImpl::op`; `zero` is `T()`. The result is the array c with its variables. -/
def binaryOp (zero : V) (op : V → V → V) (a b : Fn V) (via vib : List Nat) : Option (Arr V × List Nat) :=
  match computeViandShape via vib a b with
  | none => none
  | some (vic, shapeC) =>
    match (Arr.empty : Arr V).resize zero shapeC zero with
    | none => none
    | some c =>
      (if a.shape.length ≠ 0 ∧ b.shape.length ≠ 0 then
        walkLoop (tripleNext shapeC vic via vib) (fun s c => assign2 op c s.ab (a.eval s.a) (b.eval s.b)) c.geometry.size
          (tripleInit vic via vib) c
      else if a.shape.length = 0 ∧ b.shape.length = 0 then
        (c.resize zero [0] zero).bind (fun c => assign2 op c [0] (a.eval [0]) (b.eval [0]))
      else if a.shape.length = 0 then
        walkLoop (shapeWalkerNext shapeC) (fun s c => assign2 op c s (a.eval [0]) (b.eval s)) c.geometry.size (shapeWalkerInit shapeC) c
      else
        walkLoop (shapeWalkerNext shapeC) (fun s c => assign2 op c s (a.eval s) (b.eval [0])) c.geometry.size (shapeWalkerInit shapeC) c).map
        (fun c => (c, vic))

/-- operator.hxx 212-271 `BinaryOperationInplaceImpl::op`. -/
def binaryInplace (zero : V) (op : V → V → V) (a : Arr V) (b : Fn V) (via vib : List Nat) : Option (Arr V × List Nat) :=
  match computeViandShape via vib (ofArr a) b with
  | none => none
  | some (viaNew, shapeANew) =>
    if viaNew.length = via.length then
      if viaNew.length ≠ 0 then
        if vib.length ≠ 0 then
          (walkLoop (doubleNext shapeANew viaNew vib) (fun s a => assign2 op a s.1 (a.get s.1) (b.eval s.2)) a.geometry.size
            (doubleInit viaNew vib) a).map (fun a => (a, via))
        else
          (walkLoop (doubleNext shapeANew viaNew vib) (fun s a => assign2 op a s.1 (a.get s.1) (b.eval [0])) a.geometry.size
            (doubleInit viaNew vib) a).map (fun a => (a, via))
      else
        ((a.resize zero [0] zero).bind (fun a => assign2 op a [0] (a.get [0]) (b.eval [0]))).map (fun a => (a, viaNew))
    else binaryOp zero op (ofArr a) b via vib

/-- operator.hxx 273-305 `UnaryOperationImpl::op`. -/
def unaryOp (zero : V) (f : V → V) (a : Fn V) : Option (Arr V) :=
  if a.shape.length ≠ 0 then
    ((Arr.empty : Arr V).resize zero a.shape zero).bind (fun b =>
      walkLoop (shapeWalkerNext a.shape) (fun s b => assign1 f b s (a.eval s)) (a.shape.foldl (· * ·) 1) (shapeWalkerInit a.shape) b)
  else ((Arr.empty : Arr V).resize zero [0] zero).bind (fun b => assign1 f b [0] (a.eval [0]))

/-- operator.hxx 308-331 `UnaryOperationInplaceImpl::op`. -/
def unaryInplace (f : V → V) (a : Arr V) : Option (Arr V) :=
  if a.geometry.shape.length ≠ 0 then
    walkLoop (shapeWalkerNext a.geometry.shape) (fun s a => assign1 f a s (a.get s)) a.geometry.size (shapeWalkerInit a.geometry.shape) a
  else assign1 f a [0] (a.get [0])

/-- A counting loop that accumulates `read` at the walker's state and then increments the walker: `Accumulator::op(value, value_, value_)`
(utilities/accumulation.hxx). -/
def accLoop {σ : Type} (accOp : V → V → V) (next : σ → Option σ) (read : σ → Option V) : Nat → σ → V → Option V
  | 0, _, acc => some acc
  | n + 1, s, acc =>
    match read s with
    | none => none
    | some x =>
      match next s with
      | none => none
      | some s' => accLoop accOp next read n s' (accOp x acc)

/-- accumulator.hxx 52-76 `AccumulateAllImpl::op` without state. -/
def accumulateAll (accOp : V → V → V) (neutral : V) (a : Fn V) : Option V :=
  if a.shape.length ≠ 0 then
    accLoop accOp (shapeWalkerNext a.shape) a.eval (a.shape.foldl (· * ·) 1) (shapeWalkerInit a.shape) neutral
  else (a.eval [0]).map (fun x => accOp x neutral)

/-- accumulator.hxx 95-98 with utilities/accumulation.hxx 108-120: accumulation with the state of the best value so far. -/
def accStateLoop (bop : V → V → Bool) (accOp : V → V → V) (next : List Nat → Option (List Nat)) (read : List Nat → Option V) :
    Nat → List Nat → V × List Nat → Option (V × List Nat)
  | 0, _, acc => some acc
  | n + 1, s, acc =>
    match read s with
    | none => none
    | some x =>
      match next s with
      | none => none
      | some s' => accStateLoop bop accOp next read n s' (accOp x acc.1, if bop x acc.1 then s else acc.2)

/-- accumulator.hxx 79-109 `AccumulateAllImpl::op` with state: value and state. -/
def accumulateAllState (bop : V → V → Bool) (accOp : V → V → V) (neutral : V) (a : Fn V) : Option (V × List Nat) :=
  if a.shape.length ≠ 0 then
    accStateLoop bop accOp (shapeWalkerNext a.shape) a.eval (a.shape.foldl (· * ·) 1) (shapeWalkerInit a.shape) (neutral, [])
  else (a.eval [0]).map (fun x => (accOp x neutral, []))

/-- accumulator.hxx 129-150, 229-250: variable, extent and position of the variables that are not accumulated. -/
def notAccumulated (viA shape viAcc : List Nat) : List (Nat × Nat × Nat) :=
  (viA.zip (shape.zip (List.range viA.length))).filter (fun e => !viAcc.contains e.1)

/-- accumulator.hxx 175-200, 262-287: the double loop over the variables that are not accumulated and those that are. -/
def accumulateLoops (accOp : V → V → V) (neutral : V) (read : List Nat → Option V) (shapeA shapeNotAcc notAccPosition : List Nat)
    (b : Arr V) : Option (Arr V) :=
  match subSize shapeA notAccPosition with
  | none => none
  | some subSizeAcc =>
    walkLoop (shapeWalkerNext shapeNotAcc)
      (fun coordinateNotAcc b =>
        match subInit shapeA.length notAccPosition coordinateNotAcc with
        | none => none
        | some start => assign1 id b coordinateNotAcc (accLoop accOp (subNext shapeA notAccPosition) read subSizeAcc start neutral))
      b.geometry.size (shapeWalkerInit shapeNotAcc) b

/-- accumulator.hxx 112-209 `AccumulateSomeImpl::op`; `zero` is `T()` and `ValueType(0.0)`. -/
def accumulateSome (zero : V) (accOp : V → V → V) (neutral : V) (a : Fn V) (viA viAcc : List Nat) : Option (Arr V × List Nat) :=
  if a.shape.length ≠ 0 then
    if viA.length ≠ a.shape.length then none
    else
      let rest := notAccumulated viA a.shape viAcc
      let shapeNotAcc := rest.map (fun e => e.2.1)
      if rest.length = 0 then
        match accumulateAll accOp neutral a with
        | none => none
        | some x => (((Arr.empty : Arr V).resize zero [] zero).bind (fun b => b.set [0] x)).map (fun b => (b, []))
      else if rest.length = a.shape.length then
        (((Arr.empty : Arr V).resize zero shapeNotAcc zero).bind (fun b =>
          walkLoop (shapeWalkerNext shapeNotAcc) (fun s b => assign1 id b s (a.eval s)) (a.shape.foldl (· * ·) 1)
            (shapeWalkerInit shapeNotAcc) b)).map (fun b => (b, viA))
      else
        (((Arr.empty : Arr V).resize zero shapeNotAcc zero).bind (fun b =>
          accumulateLoops accOp neutral a.eval a.shape shapeNotAcc (rest.map (fun e => e.2.2)) b)).map
          (fun b => (b, rest.map (fun e => e.1)))
  else (((Arr.empty : Arr V).resize zero [] zero).bind (fun b => b.set [0] (accOp zero neutral))).map (fun b => (b, []))

/-- accumulator.hxx 212-300 `AccumulateSomeInplaceImpl::op`. For dimension 0 the array is emptied and then written to. -/
def accumulateInplace (zero : V) (accOp : V → V → V) (neutral : V) (a : Arr V) (viA viAcc : List Nat) : Option (Arr V × List Nat) :=
  if a.geometry.shape.length ≠ 0 then
    if viA.length ≠ a.geometry.shape.length then none
    else
      let rest := notAccumulated viA a.geometry.shape viAcc
      let shapeNotAcc := rest.map (fun e => e.2.1)
      if rest.length = 0 then
        match accumulateAll accOp neutral (ofArr a) with
        | none => none
        | some x => (((Arr.empty : Arr V).resize zero [] zero).bind (fun b => b.set [0] x)).map (fun b => (b, []))
      else if rest.length = a.geometry.shape.length then some (a, viA)
      else
        (((Arr.empty : Arr V).resize zero shapeNotAcc zero).bind (fun b =>
          accumulateLoops accOp neutral a.get a.geometry.shape shapeNotAcc (rest.map (fun e => e.2.2)) b)).map
          (fun b => (b, rest.map (fun e => e.1)))
  else ((Arr.empty : Arr V).set [0] (accOp zero neutral)).map (fun a => (a, viA))

/-- graphicalmodel_factor.hxx: class IndependentFactor, data members. -/
structure IFactor (V : Type) where
  vars : List Nat
  fn : Arr V

/-- graphicalmodel_factor.hxx 1166-1192: construction from a factor of a model, of order `src.shape.length`. -/
def ofFactor (zero : V) (vars : List Nat) (src : Fn V) : Option (IFactor V) :=
  if vars.length ≠ 0 then
    ((((Arr.empty : Arr V).resize zero src.shape zero).bind (fun f =>
      walkLoop (shapeWalkerNext src.shape) (fun s f => assign1 id f s (src.eval s)) f.geometry.size (shapeWalkerInit src.shape) f))).map
      (fun f => ⟨vars, f⟩)
  else (src.eval [0]).map (fun x => ⟨vars, .scalar x defaultOrder⟩)

/-- `f(i) = x`: write access by scalar index. -/
def setIndex (a : Arr V) (i : Nat) (x : V) : Option (Arr V) :=
  match a.data, a.geometry.indexToOffset i with
  | some mem, some o => (setAt mem o x).map (fun mem => { a with data := some mem })
  | _, _ => none

/-- `f(i) = g(x)` for a value that may have been read out of range. -/
def assignIndex (g : V → V) (f : Arr V) (i : Nat) : Option V → Option (Arr V)
  | some x => setIndex f i (g x)
  | none => none

/-- graphicalmodel_factor.hxx 1209-1237: assignment from a factor of a model; here the target is written by scalar index. -/
def assignFactor (zero : V) (vars : List Nat) (src : Fn V) : Option (IFactor V) :=
  if vars.length ≠ 0 then
    (((Arr.empty : Arr V).resize zero src.shape zero).bind (fun f =>
      walkLoop (fun s => (shapeWalkerNext src.shape s.2).map (fun c => (s.1 + 1, c)))
        (fun s f => assignIndex id f s.1 (src.eval s.2)) f.geometry.size (0, shapeWalkerInit src.shape) f)).map (fun f => ⟨vars, f⟩)
  else (src.eval [0]).map (fun x => ⟨vars, .scalar x defaultOrder⟩)

/-- graphicalmodel_factor.hxx 1129-1147 (constructor), 1107-1127 (`assign`): constant factor on the variables `vars` of a model with
label counts `labels`. -/
def constant (zero : V) (vars labels : List Nat) (value : V) : Option (IFactor V) :=
  ((Arr.empty : Arr V).resize zero labels value).map (fun f => ⟨vars, f⟩)

/-- graphicalmodel_factor.hxx 1415-1430 `operateUnary`: by scalar index. -/
def operateUnary (g : V → V) (F : IFactor V) : Option (IFactor V) :=
  if F.vars.length ≠ 0 then
    (walkLoop (fun s : Nat => some (s + 1)) (fun s f => assignIndex g f s (f.getIndex s)) F.fn.geometry.size 0 F.fn).map (fun f => ⟨F.vars, f⟩)
  else (assignIndex g F.fn 0 (F.fn.getIndex 0)).map (fun f => ⟨F.vars, f⟩)

/-- graphicalmodel_factor.hxx 1432-1450 `operateBinary(value, op)`. -/
def operateBinaryValue (op : V → V → V) (value : V) (F : IFactor V) : Option (IFactor V) := operateUnary (fun x => op x value) F

/-- operations/minimizer.hxx 32-35 `op(in, out)`: `out = out < in ? out : in`. -/
def minOp (lt : V → V → Bool) (x acc : V) : V := if lt acc x then acc else x

/-- graphicalmodel_factor.hxx 1322-1333 `subtractOffset`; `lt` compares values, `sub` subtracts, `neutral` is that of Minimizer. -/
def subtractOffset (zero : V) (lt : V → V → Bool) (sub : V → V → V) (neutral : V) (F : IFactor V) : Option (IFactor V) :=
  if F.vars.length = 0 then (setIndex F.fn 0 zero).map (fun f => ⟨F.vars, f⟩)
  else
    match accumulateAllState lt (minOp lt) neutral (ofArr F.fn) with
    | none => none
    | some (v, _) => operateBinaryValue sub v F

/-- graphicalmodel_factor.hxx 1615-1624: scan of the variables of the factor for the variable `v` to fix; `i` is the position. The result
lists the positions pushed (each with the variable and the label). -/
def fixScan (v : Nat) : List Nat → Nat → List Nat
  | [], _ => []
  | w :: vars, i => if v < w then [] else if v = w then i :: fixScan v vars (i + 1) else fixScan v vars (i + 1)

/-- graphicalmodel_factor.hxx 1609-1627: the loop over the variables to fix; result: (variable, label, position) of those found. -/
def fixFind (vars : List Nat) (back : Nat) : List Nat → List Nat → Option (List (Nat × Nat × Nat))
  | [], _ => some []
  | v :: vs, labels =>
    if v > back then some []
    else
      match fixScan v vars 0, labels with
      | [], _ :: ls => fixFind vars back vs ls
      | [], [] => fixFind vars back vs []
      | ps, l :: ls => (fixFind vars back vs ls).map (fun r => ps.map (fun i => (v, l, i)) ++ r)
      | _, [] => none

/-- graphicalmodel_factor.hxx 1596-1676 `fixVariables`. -/
def fixVariables (zero : V) (F : IFactor V) (vs labels : List Nat) : Option (IFactor V) :=
  match F.vars.getLast? with
  | none => some F
  | some back =>
    match fixFind F.vars back vs labels with
    | none => none
    | some found =>
      if F.fn.geometry.shape.length < F.vars.length then none
      else
        let rest := (F.vars.zip F.fn.geometry.shape).filter (fun e => !(found.map (fun t => t.1)).contains e.1)
        let newStates := found.map (fun t => t.2.1)
        let positions := found.map (fun t => t.2.2)
        if found.length = 0 then some F
        else if found.length = F.vars.length then (F.fn.get newStates).map (fun x => ⟨[], .scalar x defaultOrder⟩)
        else
          match subSize F.fn.geometry.shape positions, subInit F.fn.geometry.shape.length positions newStates with
          | some n, some start =>
            (walkLoop (fun s : Nat × List Nat => (subNext F.fn.geometry.shape positions s.2).map (fun c => (s.1 + 1, c)))
              (fun s f => assignIndex id f s.1 (F.fn.get s.2)) n (0, start) (.make (rest.map (fun e => e.2)) zero defaultOrder)).map
              (fun f => ⟨rest.map (fun e => e.1), f⟩)
          | _, _ => none

end FactorOps
end OpenGM
