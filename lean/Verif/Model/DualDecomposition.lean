import Verif.Model.Decomposer
import Verif.Model.GraphicalModel
import Verif.Spec.Cuts
import Mathlib.Algebra.Order.Field.Basic
import Mathlib.Algebra.Order.Group.Abs
/-
Model of include/opengm/inference/dualdecomposition/dualdecomposition_base.hxx (class DualDecompositionBase), dualdecomposition_subgradient.hxx (class
DualDecompositionSubGradient), dddualvariableblock.hxx and include/opengm/functions/modelviewfunction.hxx, for graphical models with sums of values.

Values form a linearly ordered field (no rounding, no infinities). Dual variables are arrays of the class Marray, as functions of the label tuple; that
accesses to them stay inside their shape is checked. Not modelled: parallel threads, timers, the choice of the step size (it is an argument), the visitors
(they are an oracle that may stop the inference), BLOCKS (its decomposer computes with floating point numbers) and dual variables that are views into
`mem_`. `none` is undefined behaviour.
-/
namespace OpenGM
namespace DualDecomposition
open Spec (SubVariable SubFactor Operation sumOp)
variable {V : Type} [Field V] [LinearOrder V]

/-- The accumulation types Minimizer and Maximizer. -/
inductive Acc where
  | minimizer
  | maximizer
  deriving DecidableEq

/-- operations/minimizer.hxx and maximizer.hxx `bop(a, b)`: is `a` better than `b`? -/
def Acc.bop : Acc → V → V → Bool
  | .minimizer, a, b => decide (a < b)
  | .maximizer, a, b => decide (a > b)

/-- The memory of the dual variables: `mem[b][i]` is the array `dualBlocks_[b].duals_[i]`. -/
abbrev Mem (V : Type) := List (List (List Nat → V))

/-- A value of a function of a submodel. The function objects hold pointers to the dual variables, so their values depend on the memory. -/
abbrev Val (V : Type) := Mem V → Option V

/-- operations/adder.hxx on such values. -/
def adder : Operation (Val V) :=
  ⟨fun _ => some 0, fun a b mem => match a mem, b mem with
    | some x, some y => some (x + y)
    | _, _ => none⟩

/-- dualdecomposition_base.hxx 177 `SubGmType` -/
abbrev Sub (V : Type) := GM (Val V)

/-- `gm[f](begin)` with the labels `c`; for a factor without variables the first label of the buffer that `evaluate` passes on is 0. -/
def callGm (gm : GM V) (f : Nat) (c : List Nat) : Option V :=
  match gm.factors[f]? with
  | none => none
  | some r => gm.callFactor r (if c = [] then [0] else c)

/-- `(*offset)(begin)` for the pointer to `dualBlocks_[b].duals_[i]`. -/
def readDual (mem : Mem V) (b i : Nat) (c : List Nat) : Option V :=
  match mem[b]? with
  | none => none
  | some block =>
    match block[i]? with
    | none => none
    | some T => some (T c)

/-- modelviewfunction.hxx 62-81, 124-126: a function of type VIEWOFFSET; its shape is that of the offset. -/
def viewOffset (gm : GM V) (f : Nat) (scale : V) (shape : List Nat) (b i : Nat) : Fn (Val V) :=
  ⟨shape, fun c mem => match callGm gm f c, readDual mem b i c with
    | some x, some y => some (scale * x + y)
    | _, _ => none⟩

/-- modelviewfunction.hxx 87-99, 127-128: a function of type VIEW; its shape is that of the factor. -/
def view (gm : GM V) (f : Nat) (scale : V) (shape : List Nat) : Fn (Val V) :=
  ⟨shape, fun c _ => match callGm gm f c with
    | some x => some (scale * x)
    | none => none⟩

/-- modelviewfunction.hxx 103-114, 129-130: a function of type OFFSET. -/
def offset (shape : List Nat) (b i : Nat) : Fn (Val V) :=
  ⟨shape, fun c mem => readDual mem b i c⟩

/-- The numbers of labels of variables of the model: `gm[f].shapeBegin()` and dualdecomposition_base.hxx 331-336. -/
def shapeOf (gm : GM V) (vars : List Nat) : Option (List Nat) := vars.mapM (fun v => gm.numLabels[v]?)

/-- dddualvariableblock.hxx 26-27: a block of dual variables: the shape of its arrays and the list of sub-factors (one array for each). -/
structure Block where
  shape : List Nat
  subs : List SubFactor

/-- dualdecomposition_base.hxx 322, 330, 349, 374: does the list get dual variables? -/
def hasDuals (maxOrder : Nat) (l : List SubFactor) (order : Nat) : Bool := decide (1 < l.length) && decide (order ≤ maxOrder)

/-- dualdecomposition_base.hxx 321-327: the blocks of the factors (given by their variables and ids). -/
def factorBlocks (gm : GM V) (maxOrder : Nat) (lists : List (List SubFactor)) : List (List Nat × Nat) → Option (List Block)
  | [] => some []
  | (vars, f) :: rest =>
    match lists[f]? with
    | none => none
    | some l =>
      if hasDuals maxOrder l vars.length then
        match shapeOf gm vars, factorBlocks gm maxOrder lists rest with
        | some shape, some bs => some (⟨shape, l⟩ :: bs)
        | _, _ => none
      else factorBlocks gm maxOrder lists rest

/-- dualdecomposition_base.hxx 329-341: the blocks of the sub-factors without a factor. -/
def emptyBlocks (gm : GM V) (maxOrder : Nat) : List (List Nat × List SubFactor) → Option (List Block)
  | [] => some []
  | (vars, l) :: rest =>
    if hasDuals maxOrder l vars.length then
      match shapeOf gm vars, emptyBlocks gm maxOrder rest with
      | some shape, some bs => some (⟨shape, l⟩ :: bs)
      | _, _ => none
    else emptyBlocks gm maxOrder rest

/-- The function and the variables of a factor that is added to the submodel `model`. -/
structure Call (V : Type) where
  model : Nat
  fn : Fn (Val V)
  ids : List Nat

/-- dualdecomposition_base.hxx 350-361: the calls for the copies `l` of factor `f` with dual variables; `i` counts the copies, `size` is their number. -/
def dualCalls (gm : GM V) (f size : Nat) (block : Block) (b : Nat) : List SubFactor → Nat → Option (List (Call V))
  | [], _ => some []
  | s :: rest, i =>
    if i < block.subs.length then
      match dualCalls gm f size block b rest (i + 1) with
      | none => none
      | some cs => some (⟨s.model, viewOffset gm f (1 / (size : V)) block.shape b i, s.indices⟩ :: cs)
    else none

/-- dualdecomposition_base.hxx 377-382: the calls for sub-factors without a factor. -/
def offsetCalls (block : Block) (b : Nat) : List SubFactor → Nat → Option (List (Call V))
  | [], _ => some []
  | s :: rest, i =>
    if i < block.subs.length then
      match offsetCalls block b rest (i + 1) with
      | none => none
      | some cs => some (⟨s.model, offset block.shape b i, s.indices⟩ :: cs)
    else none

/-- dualdecomposition_base.hxx 373-384: the calls of the loop over the sub-factors without a factor; `dc` is `dualCounter`. -/
def emptyCalls (maxOrder : Nat) (blocks : List Block) : List (List Nat × List SubFactor) → Nat → Option (List (Call V))
  | [], _ => some []
  | (vars, l) :: rest, dc =>
    if hasDuals maxOrder l vars.length then
      match blocks[dc]? with
      | none => none
      | some block =>
        match offsetCalls block dc l 0, emptyCalls maxOrder blocks rest (dc + 1) with
        | some cs, some cs' => some (cs ++ cs')
        | _, _ => none
    else emptyCalls maxOrder blocks rest dc

/-- dualdecomposition_base.hxx 347-384: the calls `addFunction`, `addFactor` in their order. -/
def factorCalls (gm : GM V) (maxOrder : Nat) (lists : List (List SubFactor)) (empties : List (List Nat × List SubFactor)) (blocks : List Block) :
    List (List Nat × Nat) → Nat → Option (List (Call V))
  | [], dc => emptyCalls maxOrder blocks empties dc
  | (vars, f) :: rest, dc =>
    match lists[f]?, shapeOf gm vars with
    | some l, some shape =>
      if hasDuals maxOrder l vars.length then
        match blocks[dc]? with
        | none => none
        | some block =>
          match dualCalls gm f l.length block dc l 0, factorCalls gm maxOrder lists empties blocks rest (dc + 1) with
          | some cs, some cs' => some (cs ++ cs')
          | _, _ => none
      else
        match factorCalls gm maxOrder lists empties blocks rest dc with
        | none => none
        | some cs => some (l.map (fun s => ⟨s.model, view gm f (1 / (l.length : V)) shape, s.indices⟩) ++ cs)
    | _, _ => none

/-- dualdecomposition_base.hxx 359-360 etc.: one call of `addFunction` and `addFactor`. -/
def runCall (subs : List (Sub V)) (c : Call V) : Outcome (List (Sub V)) Unit :=
  match subs[c.model]? with
  | none => .ub
  | some g =>
    match g.addFunction 0 c.fn with
    | none => .ub
    | some (fid, g1) =>
      match g1.addFactor fid c.ids with
      | .ok _ g2 => .ok () (subs.set c.model g2)
      | .throw g2 => .throw (subs.set c.model g2)
      | .ub => .ub

def runCalls : List (Call V) → List (Sub V) → Outcome (List (Sub V)) Unit
  | [], subs => .ok () subs
  | c :: cs, subs =>
    match runCall subs c with
    | .ok _ subs' => runCalls cs subs'
    | .throw s => .throw s
    | .ub => .ub

/-- dualdecomposition_base.hxx 301-310: the numbers of labels of the variables of the submodels. -/
def numStates (gm : GM V) (d : Decomposition) : Option (List (List Nat)) :=
  d.visits.foldlM (fun table (p : SubVariable × Nat) =>
    match gm.numLabels[p.2]? with
    | none => none
    | some n => Decomposition.setEntry table p.1.model p.1.id n) d.zeroTable

/-- dualdecomposition_base.hxx 199-204, dualdecomposition_subgradient.hxx 101-110: data members. The accumulation objects hold no value (`none`) at the
beginning, which is worse than any value. -/
structure DD (V : Type) where
  gm : GM V
  acc : Acc
  fill : Bool
  decomposition : Decomposition
  subs : List (Sub V)
  blocks : List Block
  mem : Mem V
  same : List (Option Bool)
  upper : Option (V × List Nat)
  negLower : Option V

/-- The variables of the factors of the model. -/
def scopesOf (gm : GM V) : List (List Nat) := gm.factors.map gm.scope

/-- dualdecomposition_base.hxx 285-384: `init` after the decomposition has been made. -/
def setup (gm : GM V) (acc : Acc) (fill : Bool) (maxOrder : Nat) (d : Decomposition) : Outcome Unit (DD V) :=
  match numStates gm d, factorBlocks gm maxOrder d.facLists (scopesOf gm).zipIdx, emptyBlocks gm maxOrder d.empty with
  | some ns, some bs, some es =>
    let blocks := bs ++ es
    match factorCalls gm maxOrder d.facLists d.empty blocks (scopesOf gm).zipIdx 0 with
    | none => .ub
    | some calls =>
      match runCalls calls (ns.map (GM.ofSpace 1)) with
      | .ub => .ub
      | .throw _ => .throw ()
      | .ok _ subs =>
        .ok ⟨gm, acc, fill, d, subs, blocks, blocks.map (fun b => List.replicate b.subs.length (fun _ => 0)),
          List.replicate d.numModels none, none, none⟩ ()
  | _, _, _ => .ub

/-- dualdecomposition_base.hxx 46: `DecompositionId`, with the data it uses. -/
inductive Kind where
  | tree
  | spanningTrees
  | kFans (k : Nat)
  | manual (subFactors : List (List Nat))
  | closedBlocks (subVariables : List (List Nat))
  | openBlocks (subVariables : List (List Nat))

/-- dualdecomposition_base.hxx 235-283: the decomposer that is called. -/
def decompose (gm : GM V) : Kind → Outcome Unit Decomposition
  | .tree => ofOption (Decomposer.tree gm.numberOfVariables (scopesOf gm))
  | .spanningTrees => ofOption (Decomposer.spanningTrees gm.numberOfVariables (scopesOf gm))
  | .kFans k =>
    match Decomposer.kFansOfSize ⟨gm.numberOfVariables, scopesOf gm, gm.adj⟩ k with
    | .ok _ d => .ok d ()
    | .throw _ => .throw ()
    | .ub => .ub
  | .manual subs => ofOption (Decomposer.manual gm.numberOfVariables (scopesOf gm) subs)
  | .closedBlocks bs => ofOption (Decomposer.closedBlocks gm.numberOfVariables (scopesOf gm) bs)
  | .openBlocks bs => ofOption (Decomposer.openBlocks gm.numberOfVariables (scopesOf gm) bs)
where
  ofOption : Option Decomposition → Outcome Unit Decomposition
    | none => .ub
    | some d => .ok d ()

/-- dualdecomposition_base.hxx 238-240 etc.: `reorder`, `complete`, and the maximal order of dual variables is set to 1. -/
def prepare (gm : GM V) (acc : Acc) (fill : Bool) (d : Decomposition) : Outcome Unit (DD V) :=
  match d.reorder with
  | none => .ub
  | some d1 =>
    match d1.complete with
    | none => .ub
    | some d2 => setup gm acc fill 1 d2

/-- dualdecomposition_subgradient.hxx 120-138: the constructors (dualdecomposition_base.hxx 232-385 `init`). -/
def construct (gm : GM V) (acc : Acc) (fill : Bool) (k : Kind) : Outcome Unit (DD V) :=
  match decompose gm k with
  | .ub => .ub
  | .throw _ => .throw ()
  | .ok d _ => prepare gm acc fill d

/-- accumulation.hxx 111-123 `Accumulation::operator()(value, state)`. -/
def accumulate (acc : Acc) (cur : Option (V × List Nat)) (value : V) (state : List Nat) : Option (V × List Nat) :=
  match cur with
  | none => some (value, state)
  | some (v, s) => if acc.bop value v then some (value, state) else some (v, s)

/-- The same without a state. -/
def accumulateValue (acc : Acc) (cur : Option V) (value : V) : V :=
  match cur with
  | none => value
  | some v => if acc.bop value v then value else v

/-- dualdecomposition_base.hxx 418-422: the sum of the values of the submodels. -/
def lowerBound (mem : Mem V) : List (Sub V) → List (List Nat) → Option V
  | [], _ => some 0
  | _ :: _, [] => none
  | g :: gs, x :: xs =>
    match GM.evaluate adder g x with
    | none => none
    | some v =>
      match v mem, lowerBound mem gs xs with
      | some a, some b => some (a + b)
      | _, _ => none

/-- dualdecomposition_base.hxx 429-438: submodels in which a copy has another number than its variable. -/
def markDifferent (visits : List (SubVariable × Nat)) (same : List (Option Bool)) : Option (List (Option Bool)) :=
  visits.foldlM (fun same (p : SubVariable × Nat) => if p.1.id ≠ p.2 then setAt same p.1.model (some false) else some same) same

/-- dualdecomposition_base.hxx 439-446: all other submodels with the right number of variables. -/
def markSame (n : Nat) : List (Sub V) → List (Option Bool) → Option (List (Option Bool))
  | [], same => some same
  | _ :: _, [] => none
  | g :: gs, t :: ts =>
    let t1 := if n ≠ g.numberOfVariables then some false else t
    let t2 := if t1 = none then some true else t1
    match markSame n gs ts with
    | none => none
    | some ts' => some (t2 :: ts')

/-- dualdecomposition_base.hxx 428-447: set `modelWithSameVariables_` in the first call. -/
def updateSame (dd : DD V) : Option (List (Option Bool)) :=
  match dd.same[0]? with
  | none => none
  | some none =>
    match markDifferent dd.decomposition.visits dd.same with
    | none => none
    | some same => markSame dd.gm.numberOfVariables dd.subs same
  | some (some _) => some dd.same

/-- `++labelCount[l]` on a std::map, as a list sorted by keys. -/
def bump (l : Nat) : List (Nat × Nat) → List (Nat × Nat)
  | [] => [(l, 1)]
  | (k, c) :: rest => if k = l then (k, c + 1) :: rest else if l < k then (l, 1) :: (k, c) :: rest else (k, c) :: bump l rest

/-- dualdecomposition_base.hxx 469-475: the first label with the largest count. -/
def mostFrequent : List (Nat × Nat) → Nat → Nat → Nat
  | [], _, best => best
  | (k, n) :: rest, c, best => if n > c then mostFrequent rest n k else mostFrequent rest c best

/-- dualdecomposition_base.hxx 461-468: the labels of the copies of a variable. -/
def labelCounts (states : List (List Nat)) : List SubVariable → List (Nat × Nat) → Option (List (Nat × Nat))
  | [], counts => some counts
  | s :: rest, counts =>
    match Decomposition.entry states s.model s.id with
    | none => none
    | some l => labelCounts states rest (bump l counts)

/-- dualdecomposition_base.hxx 459-476: the default labeling. -/
def defaultLabel (states : List (List Nat)) : List (List SubVariable) → Option (List Nat)
  | [] => some []
  | copies :: rest =>
    match labelCounts states copies [], defaultLabel states rest with
    | some counts, some xs => some (mostFrequent counts 0 0 :: xs)
    | _, _ => none

/-- dualdecomposition_base.hxx 486-488: overwrite the labels of the variables in one submodel. -/
def overwrite : List Nat → List Nat → List Nat → Option (List Nat)
  | [], _, label => some label
  | _ :: _, [], _ => none
  | l :: ls, v :: vs, label =>
    match setAt label v l with
    | none => none
    | some label' => overwrite ls vs label'

/-- dualdecomposition_base.hxx 482-495: the candidates from the submodels; `real` is `subVariable2TrueVariable`. -/
def candidates (dd : DD V) (dflt : List Nat) (real : List (List Nat)) : List (List Nat) → List (Option Bool) → Nat → Option (V × List Nat) → Option (Option (V × List Nat))
  | [], _, _, ac => some ac
  | _ :: _, [], _, _ => none
  | x :: xs, t :: ts, m, ac =>
    if t = some false then
      if dd.fill then
        match real[m]? with
        | none => none
        | some vs =>
          match overwrite x vs dflt with
          | none => none
          | some label =>
            match GM.evaluate (sumOp V) dd.gm label with
            | none => none
            | some v => candidates dd dflt real xs ts (m + 1) (accumulate dd.acc ac v label)
      else candidates dd dflt real xs ts (m + 1) ac
    else
      match GM.evaluate (sumOp V) dd.gm x with
      | none => none
      | some v => candidates dd dflt real xs ts (m + 1) (accumulate dd.acc ac v x)

/-- dualdecomposition_base.hxx 405-498 `getBounds`: lower bound, upper bound and its labeling, and `modelWithSameVariables_`. -/
def getBounds (dd : DD V) (states : List (List Nat)) : Option (V × (V × List Nat) × List (Option Bool)) :=
  match lowerBound dd.mem dd.subs states, updateSame dd, dd.decomposition.realTable, defaultLabel states dd.decomposition.varLists with
  | some lower, some same, some real, some dflt =>
    match GM.evaluate (sumOp V) dd.gm dflt with
    | none => none
    | some v =>
      match candidates dd dflt real states same 0 (accumulate dd.acc none v dflt) with
      | some (some best) => some (lower, best, same)
      | _ => none
  | _, _, _, _ => none

/-- `array(s.begin()) += x` -/
def addTo (shape : List Nat) (T : List Nat → V) (s : List Nat) (x : V) : Option (List Nat → V) :=
  if s.length = shape.length && inShape shape s then some (fun c => if c = s then T c + x else T c) else none

/-- dualdecomposition_subgradient.hxx 241-243: subtract from all arrays of a block. -/
def subAll (shape : List Nat) (s : List Nat) (x : V) : List (List Nat → V) → Option (List (List Nat → V))
  | [] => some []
  | T :: Ts =>
    match addTo shape T s (-x), subAll shape s x Ts with
    | some T', some Ts' => some (T' :: Ts')
    | _, _ => none

/-- dualdecomposition_subgradient.hxx 314-325 `getPartialSubGradient`: the labels of the variables of a sub-factor; `n` is the size of `s`. -/
def gather (states : List (List Nat)) (s : SubFactor) (n : Nat) : Option (List Nat) :=
  (List.range n).mapM (fun j =>
    match s.indices[j]? with
    | none => none
    | some k => Decomposition.entry states s.model k)

/-- dualdecomposition_subgradient.hxx 237-244: the loop over the dual variables of a block; `l` are the sub-factors from the `i`-th on, `n` the number of
variables of the first. -/
def blockLoop (states : List (List Nat)) (step : V) (shape : List Nat) (n : Nat) : List SubFactor → Nat → List (List Nat → V) → Option (List (List Nat → V))
  | [], _, Ts => some Ts
  | s :: rest, i, Ts =>
    match gather states s n, Ts[i]? with
    | some c, some T =>
      match addTo shape T c step with
      | none => none
      | some T' =>
        match subAll shape c (step / (Ts.length : V)) (Ts.set i T') with
        | none => none
        | some Ts' => blockLoop states step shape n rest (i + 1) Ts'
    | _, _ => none

/-- dualdecomposition_subgradient.hxx 233-246: the loop over the blocks. -/
def dualStep (states : List (List Nat)) (step : V) : List Block → Mem V → Option (Mem V)
  | [], _ => some []
  | _ :: _, [] => none
  | b :: bs, Ts :: mem =>
    match b.subs[0]? with
    | none => none
    | some s0 =>
      match blockLoop states step b.shape s0.indices.length b.subs 0 Ts, dualStep states step bs mem with
      | some Ts', some mem' => some (Ts' :: mem')
      | _, _ => none

/-- dualdecomposition_subgradient.hxx 202-246: one iteration, with the labelings `states` that the solvers of the submodels return. -/
def iterate (dd : DD V) (states : List (List Nat)) (step : DD V → V) : Option (DD V) :=
  match getBounds dd states with
  | none => none
  | some (lower, (v, x), same) =>
    let dd1 := { dd with same := same, negLower := some (accumulateValue dd.acc dd.negLower (-lower)), upper := accumulate dd.acc dd.upper v x }
    match dualStep states (step dd1) dd1.blocks dd1.mem with
    | none => none
    | some mem => some { dd1 with mem := mem }

/-- The solver of the submodels: its result in iteration `it` on the submodel `g`, whose values depend on the memory. -/
abbrev Solver (V : Type) := Nat → Sub V → Mem V → List Nat

/-- dualdecomposition_subgradient.hxx 263-264: the test for convergence. A quotient by 0 is infinite or not a number and does not pass the test. -/
def converged (dd : DD V) (absAcc relAcc : V) : Option Bool :=
  match dd.upper, dd.negLower with
  | some (v, _), some l => some (decide (|v + l| ≤ absAcc) || decide (v ≠ 0 ∧ |(v + l) / v| ≤ relAcc))
  | _, _ => none

/-- dualdecomposition_subgradient.hxx 185-270: the loop of `infer`; `left` iterations are left. `step` is the step size (an arbitrary function of the
iteration and the state), `visit` the result of the visitor (true: stop). The result also tells whether the test for convergence ended the loop. -/
def inferLoop (solver : Solver V) (step : Nat → DD V → V) (visit : Nat → DD V → Bool) (absAcc relAcc : V) : Nat → Nat → DD V → Option (Bool × DD V)
  | 0, _, dd => some (false, dd)
  | left + 1, it, dd =>
    match iterate dd (dd.subs.map (fun g => solver it g dd.mem)) (step it) with
    | none => none
    | some dd1 =>
      if visit it dd1 then some (false, dd1)
      else
        match converged dd1 absAcc relAcc with
        | none => none
        | some true => some (true, dd1)
        | some false => inferLoop solver step visit absAcc relAcc left (it + 1) dd1

/-- dualdecomposition_subgradient.hxx 176-275 `infer(visitor)`; `maxIter` is `maximalNumberOfIterations_`. -/
def infer (dd : DD V) (solver : Solver V) (step : Nat → DD V → V) (visit : Nat → DD V → Bool) (absAcc relAcc : V) (maxIter : Nat) : Option (Bool × DD V) :=
  inferLoop solver step visit absAcc relAcc maxIter 0 dd

/-- dualdecomposition_subgradient.hxx 297-301 `bound()`; `none`: no iteration has been made (minus the neutral element). -/
def bound (dd : DD V) : Option V := dd.negLower.map (fun l => -l)

/-- dualdecomposition_subgradient.hxx 291-295 `value()` -/
def value (dd : DD V) : Option V := dd.upper.map Prod.fst

/-- dualdecomposition_subgradient.hxx 278-289 `arg(conf)` (n = 1); the state of the accumulation object is empty at the beginning. -/
def arg (dd : DD V) : List Nat := (dd.upper.map Prod.snd).getD []

end DualDecomposition
end OpenGM
