import Verif.Model.GraphicalModel
/-
Model of include/opengm/inference/dynamicprogramming.hxx (class DynamicProgramming), with NDEBUG, so the assertion
`gm_.isAcyclic()` of the constructor is a no-op. `none` and `.ub` stand for undefined behaviour. The visitor does nothing.
The two allocated blocks are modelled as one buffer per variable, and an access outside the buffer of the variable is undefined
behaviour (in C++ it may instead hit the buffer of another variable: the model is stricter). `bop` and `accNeutral`
are `ACC::bop` and `ACC::neutral`. `std::numeric_limits<>::max()` used as a mark is `none`.
-/
namespace OpenGM
namespace DP
open Spec (Operation)
variable {V : Type}

/-- Local variables of the constructor (dynamicprogramming.hxx 107-112): `nodeOrder_`, `nodeList` (back of the vector = head of
the list), `orderCount`, `numChildren`. -/
structure Build where
  order : List (Option Nat)
  stack : List Nat
  count : Nat
  children : List Nat
  deriving DecidableEq

/-- dynamicprogramming.hxx 129-133 and 134-138: `if(self == node && nodeOrder_[other] == max) {...}`. -/
def discover (s : Build) (node other self : Nat) : Option Build :=
  if self = node then
    match s.order[other]? with
    | none => none
    | some (some _) => some s
    | some none =>
      match s.children[node]? with
      | none => none
      | some c => some ⟨s.order.set other (some s.count), other :: s.stack, s.count + 1, s.children.set node (c + 1)⟩
  else some s

/-- dynamicprogramming.hxx 126-140: one factor of `node`. -/
def scanFactor (gm : GM V) (node : Nat) (s : Build) (fi : Nat) : Option Build :=
  match gm.factors[fi]? with
  | none => none
  | some f =>
    if f.visSize = 2 then
      match gm.visAt f 0, gm.visAt f 1 with
      | some a, some b =>
        match discover s node a b with
        | none => none
        | some s' => discover s' node b a
      | _, _ => none
    else some s

/-- dynamicprogramming.hxx 126-141: all factors of `node`. -/
def scanNode (gm : GM V) (node : Nat) : List Nat → Build → Option Build
  | [], s => some s
  | fi :: fs, s =>
    match scanFactor gm node s fi with
    | none => none
    | some s' => scanNode gm node fs s'

/-- dynamicprogramming.hxx 123-142: `while(nodeList.size()>0)`. Every variable enters the list at most once if no root is
given twice; running out of fuel is reported as `none`. -/
def drain (gm : GM V) : Nat → Build → Option Build
  | fuel, s =>
    match s.stack with
    | [] => some s
    | node :: rest =>
      match fuel with
      | 0 => none
      | fuel + 1 =>
        match gm.adj[node]? with
        | none => none
        | some fs =>
          match scanNode gm node fs ⟨s.order, rest, s.count, s.children⟩ with
          | none => none
          | some s' => drain gm fuel s'

/-- dynamicprogramming.hxx 115-116 / 119-120: give `v` the next number and push it. -/
def start (s : Build) (v : Nat) : Option Build :=
  match setAt s.order v (some s.count) with
  | none => none
  | some order => some ⟨order, v :: s.stack, s.count + 1, s.children⟩

/-- dynamicprogramming.hxx 113-143: the loop over `varCount`; the first argument is `numberOfVariables - varCount`, `roots`
are the roots not yet used. -/
def orderLoop (gm : GM V) : Nat → Nat → List Nat → Build → Option Build
  | 0, _, _, s => some s
  | k + 1, varCount, roots, s =>
    if s.count < gm.numberOfVariables then
      match roots with
      | r :: rs =>
        match start s r with
        | none => none
        | some s' =>
          match drain gm (gm.numberOfVariables + 1) s' with
          | none => none
          | some s'' => orderLoop gm k (varCount + 1) rs s''
      | [] =>
        match s.order[varCount]? with
        | none => none
        | some (some _) =>
          match drain gm (gm.numberOfVariables + 1) s with
          | none => none
          | some s'' => orderLoop gm k (varCount + 1) [] s''
        | some none =>
          match start s varCount with
          | none => none
          | some s' =>
            match drain gm (gm.numberOfVariables + 1) s' with
            | none => none
            | some s'' => orderLoop gm k (varCount + 1) [] s''
    else some s

/-- dynamicprogramming.hxx 168-170: `orderedNodes_[nodeOrder_[i]] = i`. A number that was never assigned is far out of
range. -/
def fillOrdered : List (Option Nat) → Nat → List Nat → Option (List Nat)
  | [], _, l => some l
  | none :: _, _, _ => none
  | some k :: os, i, l =>
    match setAt l k i with
    | none => none
    | some l' => fillOrdered os (i + 1) l'

/-- dynamicprogramming.hxx 64-84: data members. `values[v]` is `valueBuffers_[v]` (`[]` before it is first written:
reading it then is undefined), `states[v]` is `stateBuffers_[v]` with unwritten entries `none`. -/
structure Solver (V : Type) where
  order : List Nat
  nodes : List Nat
  values : List (List V)
  states : List (List (Option Nat))
  started : Bool

/-- dynamicprogramming.hxx 97-172: constructor, `roots` = `para.roots_`. -/
def construct (gm : GM V) (roots : List Nat) : Option (Solver V) :=
  let n := gm.numberOfVariables
  match orderLoop gm n 0 roots ⟨List.replicate n none, [], 0, List.replicate n 0⟩ with
  | none => none
  | some s =>
    match fillOrdered s.order 0 (List.replicate n n) with
    | none => none
    | some nodes =>
      some ⟨s.order.filterMap id, nodes, List.replicate n [],
        (gm.numLabels.zip s.children).map (fun c => List.replicate (c.1 * c.2) none), false⟩

/-- dynamicprogramming.hxx 216-223 / 236-243: minimum over the labels of the other variable. -/
def messageLoop (o : Operation V) (bop : V → V → Bool) (call : Nat → Option V) (row2 : List V) :
    List Nat → V → Option Nat → Option (V × Option Nat)
  | [], v, s => some (v, s)
  | l2 :: ls, v, s =>
    match call l2, row2[l2]? with
    | some fac, some w =>
      if bop (o.op fac w) v then messageLoop o bop call row2 ls (o.op fac w) (some l2)
      else messageLoop o bop call row2 ls v s
    | _, _ => none

/-- dynamicprogramming.hxx 214-226 / 234-246: loop over the labels of `node`; `L` = number of its labels, `k` =
`childrenCounter`. The variable `s` is not initialised, and not reset between the labels. -/
def pairLoop (o : Operation V) (bop : V → V → Bool) (accNeutral : V) (call : Nat → Nat → Option V) (row2 : List V)
    (L n2 k : Nat) : List Nat → Option Nat → List V → List (Option Nat) → Option (List V × List (Option Nat))
  | [], _, row, srow => some (row, srow)
  | l :: ls, s, row, srow =>
    match messageLoop o bop (call l) row2 (List.range n2) accNeutral s with
    | none => none
    | some (_, none) => none
    | some (v, some s') =>
      match setAt srow (k * L + l) (some s'), row[l]? with
      | some srow', some cur => pairLoop o bop accNeutral call row2 L n2 k ls (some s') (row.set l (o.op cur v)) srow'
      | _, _ => none

/-- dynamicprogramming.hxx 200-204: unary factor. -/
def unaryLoop (o : Operation V) (call : Nat → Option V) : List Nat → List V → Option (List V)
  | [], row => some row
  | l :: ls, row =>
    match call l, row[l]? with
    | some fac, some cur => unaryLoop o call ls (row.set l (o.op cur fac))
    | _, _ => none

/-- dynamicprogramming.hxx 210 / 230: `factor.variableIndex(.) == node && nodeOrder_[other] > nodeOrder_[node]`. -/
def isChild (order : List Nat) (node other self : Nat) : Option Bool :=
  if self = node then
    match order[other]?, order[node]? with
    | some x, some y => some (decide (x > y))
    | _, _ => none
  else some false

/-- The part of the object that `infer` works on while it is at `node`: its row of values, its row of states and
`childrenCounter`. -/
structure Work (V : Type) where
  row : List V
  srow : List (Option Nat)
  counter : Nat

/-- dynamicprogramming.hxx 211-227 / 231-247: message from `other` to `node`. `call l l2` calls the factor with label `l` for
`node` and `l2` for `other`. -/
def message (o : Operation V) (bop : V → V → Bool) (accNeutral : V) (gm : GM V) (values : List (List V)) (L other : Nat)
    (call : Nat → Nat → Option V) (w : Work V) : Option (Work V) :=
  match gm.numLabels[other]?, values[other]? with
  | some n2, some row2 =>
    match pairLoop o bop accNeutral call row2 L n2 w.counter (List.range L) none w.row w.srow with
    | none => none
    | some (row, srow) => some ⟨row, srow, w.counter + 1⟩
  | _, _ => none

/-- dynamicprogramming.hxx 207-249: pairwise factor. Since a variable with a larger number is another variable, the row of
`node` itself is never read as the row of `other`. -/
def pairStep (o : Operation V) (bop : V → V → Bool) (accNeutral : V) (gm : GM V) (d : Solver V) (node L a b : Nat)
    (f : FactorRec) (w : Work V) : Option (Work V) :=
  match isChild d.order node b a with
  | none => none
  | some c1 =>
    match (if c1 then message o bop accNeutral gm d.values L b (fun l l2 => gm.callFactor f [l, l2]) w else some w) with
    | none => none
    | some w' =>
      match isChild d.order node a b with
      | none => none
      | some c2 =>
        if c2 then message o bop accNeutral gm d.values L a (fun l l2 => gm.callFactor f [l2, l]) w' else some w'

/-- dynamicprogramming.hxx 196-253: one factor of `node`. -/
def factorStep (o : Operation V) (bop : V → V → Bool) (accNeutral : V) (gm : GM V) (d : Solver V) (node L : Nat) (fi : Nat)
    (w : Work V) : Outcome (Work V) Unit :=
  match gm.factors[fi]? with
  | none => .ub
  | some f =>
    if f.visSize = 1 then
      match unaryLoop o (fun l => gm.callFactor f [l]) (List.range L) w.row with
      | none => .ub
      | some row => .ok () ⟨row, w.srow, w.counter⟩
    else if f.visSize = 2 then
      match gm.visAt f 0, gm.visAt f 1 with
      | some a, some b =>
        match pairStep o bop accNeutral gm d node L a b f w with
        | none => .ub
        | some w' => .ok () w'
      | _, _ => .ub
    else if f.visSize > 2 then .throw w
    else .ok () w

/-- dynamicprogramming.hxx 195-255: the factors of `node`. -/
def factorLoop (o : Operation V) (bop : V → V → Bool) (accNeutral : V) (gm : GM V) (d : Solver V) (node L : Nat) :
    List Nat → Work V → Outcome (Work V) Unit
  | [], w => .ok () w
  | fi :: fs, w =>
    match factorStep o bop accNeutral gm d node L fi w with
    | .ub => .ub
    | .throw w' => .throw w'
    | .ok _ w' => factorLoop o bop accNeutral gm d node L fs w'

/-- dynamicprogramming.hxx 189-256: one iteration of the loop over the nodes. -/
def nodeStep (o : Operation V) (bop : V → V → Bool) (accNeutral : V) (gm : GM V) (d : Solver V) (node : Nat) :
    Outcome (Solver V) Unit :=
  match gm.numLabels[node]?, gm.adj[node]?, d.states[node]? with
  | some L, some fs, some srow =>
    match factorLoop o bop accNeutral gm d node L fs ⟨List.replicate L o.neutral, srow, 0⟩ with
    | .ub => .ub
    | .throw w => .throw ⟨d.order, d.nodes, d.values.set node w.row, d.states.set node w.srow, d.started⟩
    | .ok _ w => .ok () ⟨d.order, d.nodes, d.values.set node w.row, d.states.set node w.srow, d.started⟩
  | _, _, _ => .ub

/-- dynamicprogramming.hxx 188-256: `for(i=1; i<=n; ++i)`; the argument counts down, so it is the position of the node plus
one. -/
def nodeLoop (o : Operation V) (bop : V → V → Bool) (accNeutral : V) (gm : GM V) : Nat → Solver V → Outcome (Solver V) Unit
  | 0, d => .ok () d
  | k + 1, d =>
    match d.nodes[k]? with
    | none => .ub
    | some node =>
      match nodeStep o bop accNeutral gm d node with
      | .ub => .ub
      | .throw d' => .throw d'
      | .ok _ d' => nodeLoop o bop accNeutral gm k d'

/-- dynamicprogramming.hxx 182-259 `infer`. -/
def infer (o : Operation V) (bop : V → V → Bool) (accNeutral : V) (gm : GM V) (d : Solver V) : Outcome (Solver V) Unit :=
  nodeLoop o bop accNeutral gm gm.numberOfVariables ⟨d.order, d.nodes, d.values, d.states, true⟩

/-- dynamicprogramming.hxx 276-283: best entry of a row; `a` is `arg[var]`. -/
def rootLoop (bop : V → V → Bool) (row : List V) : List Nat → V → Option Nat → Option (Option Nat)
  | [], _, a => some a
  | i :: is, v, a =>
    match row[i]? with
    | none => none
    | some x => if bop x v then rootLoop bop row is x (some i) else rootLoop bop row is v a

/-- dynamicprogramming.hxx 295-304: hand the state on to `other` and push it. An unset `arg[node]` is a huge index. -/
def assign (states : List (List (Option Nat))) (node L other : Nat) (arg : List (Option Nat)) (stack : List Nat) (counter : Nat) :
    Option (List (Option Nat) × List Nat × Nat) :=
  match states[node]?, arg[node]? with
  | some srow, some (some l) =>
    match srow[counter * L + l]? with
    | some (some s) =>
      match setAt arg other (some s) with
      | none => none
      | some arg' => some (arg', other :: stack, counter + 1)
    | _ => none
  | _, _ => none

/-- dynamicprogramming.hxx 292-306: one factor of `node`. -/
def argFactor (gm : GM V) (d : Solver V) (node L : Nat) (fi : Nat) (arg : List (Option Nat)) (stack : List Nat) (counter : Nat) :
    Option (List (Option Nat) × List Nat × Nat) :=
  match gm.factors[fi]? with
  | none => none
  | some f =>
    if f.visSize = 2 then
      match gm.visAt f 0, gm.visAt f 1 with
      | some a, some b =>
        match isChild d.order node a b with
        | none => none
        | some c1 =>
          match (if c1 then assign d.states node L a arg stack counter else some (arg, stack, counter)) with
          | none => none
          | some (arg', stack', counter') =>
            match isChild d.order node b a with
            | none => none
            | some c2 => if c2 then assign d.states node L b arg' stack' counter' else some (arg', stack', counter')
      | _, _ => none
    else some (arg, stack, counter)

/-- dynamicprogramming.hxx 291-307: the factors of `node`. -/
def argFactors (gm : GM V) (d : Solver V) (node L : Nat) : List Nat → List (Option Nat) → List Nat → Nat →
    Option (List (Option Nat) × List Nat)
  | [], arg, stack, _ => some (arg, stack)
  | fi :: fs, arg, stack, counter =>
    match argFactor gm d node L fi arg stack counter with
    | none => none
    | some (arg', stack', counter') => argFactors gm d node L fs arg' stack' counter'

/-- dynamicprogramming.hxx 287-308: `while(nodeList.size()>0)`; running out of fuel is reported as `none`. -/
def argDrain (gm : GM V) (d : Solver V) : Nat → List (Option Nat) → List Nat → Option (List (Option Nat))
  | _, arg, [] => some arg
  | 0, _, _ :: _ => none
  | fuel + 1, arg, node :: rest =>
    match gm.numLabels[node]?, gm.adj[node]? with
    | some L, some fs =>
      match argFactors gm d node L fs arg rest 0 with
      | none => none
      | some (arg', stack) => argDrain gm d fuel arg' stack
    | _, _ => none

/-- dynamicprogramming.hxx 274-309: `while(var < n)`; the first argument is `n - var`. -/
def argLoop (bop : V → V → Bool) (accNeutral : V) (gm : GM V) (d : Solver V) : Nat → Nat → List (Option Nat) →
    Option (List (Option Nat))
  | 0, _, arg => some arg
  | k + 1, var, arg =>
    match arg[var]? with
    | none => none
    | some (some _) => argLoop bop accNeutral gm d k (var + 1) arg
    | some none =>
      match gm.numLabels[var]?, d.values[var]? with
      | some L, some row =>
        match rootLoop bop row (List.range L) accNeutral none with
        | none => none
        | some a =>
          match argDrain gm d (gm.numberOfVariables + 1) (arg.set var a) [var] with
          | none => none
          | some arg' => argLoop bop accNeutral gm d k (var + 1) arg'
      | _, _ => none

/-- dynamicprogramming.hxx 262-317 `arg(arg, n)`: the returned flag is `true` for NORMAL and `false` for UNKNOWN. A
variable left at `max()` appears as `none`. -/
def arg (bop : V → V → Bool) (accNeutral : V) (gm : GM V) (d : Solver V) (n : Nat) : Option (Bool × List (Option Nat)) :=
  if n > 1 then some (false, List.replicate gm.numberOfVariables (some 0))
  else if d.started then
    match argLoop bop accNeutral gm d gm.numberOfVariables 0 (List.replicate gm.numberOfVariables none) with
    | none => none
    | some a => some (true, a)
  else some (false, List.replicate gm.numberOfVariables (some 0))

end DP
end OpenGM
