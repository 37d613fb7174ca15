import Verif.Model.GraphicalModel
import Verif.Spec.Cuts
import Mathlib.Algebra.Order.Ring.Abs
/-
Model of include/opengm/inference/graphcut.hxx (class GraphCut). The min st-cut solver (template argument MINSTCUT, e.g.
auxiliary/minstcutboost.hxx) is external: what it is told is kept as a network, and `calculateCut` is an argument `solver` that
gets the network and the old contents of the vector it writes to.

Values form a linearly ordered commutative ring (no overflow, no rounding); MINSTCUT::ValueType is the same type. Assertions
(OPENGM_ASSERT) are compiled out. `none` / `.ub` is an access out of range.
-/
namespace OpenGM
namespace GraphCut
open Spec (Edge Network)

/-- The template argument ACC, as far as graphcut.hxx distinguishes it. -/
inductive Acc where
  | minimizer
  | maximizer
  | other
  deriving DecidableEq

/-- What `addFactor` uses of a factor: `variableIndex(i)` for all i, and `operator()`. -/
structure FactorView (V : Type) where
  vars : List Nat
  val : List Nat → Option V

/-- graphcut.hxx 66-77: data members; `network` is what `*minStCut_` has been told (numbers of nodes and the edges). -/
structure GC (V : Type) where
  tolerance : V
  scale : V
  network : Network V
  numVariables : Nat
  numFacDim3 : Nat
  tripleList : List (Nat × Nat × Nat)
  state : List Bool
  sEdges : List V
  tEdges : List V
  inferenceDone : Bool

variable {V : Type} [CommRing V] [LinearOrder V]

/-- minstcutboost.hxx 90-100 `addEdge`; nodes outside of the graph are undefined behaviour. -/
def solverAddEdge (n : Network V) (v w : Nat) (cost : V) : Option (Network V) :=
  if v < n.numNodes ∧ w < n.numNodes then some ⟨n.numNodes, n.edges ++ [⟨v, w, cost⟩]⟩ else none

/-- `vec[i] += x` -/
def addAt (l : List V) (i : Nat) (x : V) : Option (List V) :=
  match l[i]? with
  | none => none
  | some y => some (l.set i (y + x))

/-- graphcut.hxx 320-342 `addEdgeCapacity` (`n2 - 2`, `n1 - 2` wrap around below 2, out of range). -/
def addEdgeCapacity (g : GC V) (v w : Nat) (val : V) : Option (GC V) :=
  let cost := g.scale * val
  if v = 0 then
    if w < 2 then none
    else
      match addAt g.sEdges (w - 2) cost with
      | none => none
      | some s => some { g with sEdges := s }
  else if w = 1 then
    if v < 2 then none
    else
      match addAt g.tEdges (v - 2) cost with
      | none => none
      | some t => some { g with tEdges := t }
  else
    match solverAddEdge g.network v w cost with
    | none => none
    | some n => some { g with network := n }

/-- A sequence of calls of `addEdgeCapacity`. -/
def request (g : GC V) : List (Nat × Nat × V) → Option (GC V)
  | [] => some g
  | (v, w, x) :: rs =>
    match addEdgeCapacity g v w x with
    | none => none
    | some g' => request g' rs

/-- graphcut.hxx 178-198: the calls of `addEdgeCapacity` for a factor of one variable. -/
def unaryRequests (acc : Acc) (var : Nat) (v0 v1 : V) : List (Nat × Nat × V) :=
  if acc = .minimizer then
    if v0 ≤ v1 then [(0, var + 2, v1 - v0)] else [(var + 2, 1, v0 - v1)]
  else
    if v1 ≤ v0 then [(0, var + 2, -v1 + v0)] else [(var + 2, 1, -v0 + v1)]

/-- graphcut.hxx 200-247: the calls of `addEdgeCapacity` for a factor of two variables. -/
def pairRequests (tolerance : V) (acc : Acc) (var0 var1 : Nat) (A B C D : V) : List (Nat × Nat × V) :=
  if acc = .minimizer then
    (if A < C then [(0, var0 + 2, C - A)] else if C < A then [(var0 + 2, 1, A - C)] else []) ++
    (if C < D then [(0, var1 + 2, D - C)] else if D < C then [(var1 + 2, 1, C - D)] else []) ++
    [(var0 + 2, var1 + 2, if B + C - A - D < 0 ∧ -tolerance ≤ B + C - A - D then 0 else B + C - A - D)]
  else
    (if C < A then [(0, var0 + 2, -C + A)] else if A < C then [(var0 + 2, 1, -A + C)] else []) ++
    (if D < C then [(0, var1 + 2, -D + C)] else if C < D then [(var1 + 2, 1, -C + D)] else []) ++
    [(var0 + 2, var1 + 2, -(if 0 < B + C - A - D ∧ B + C - A - D ≤ tolerance then 0 else B + C - A - D))]

/-- graphcut.hxx 270-306: the calls of `addEdgeCapacity` for a factor of three variables and `Minimizer`. -/
def tripleRequests (id var0 var1 var2 : Nat) (A B C D E F G H : V) : List (Nat × Nat × V) :=
  let P := (A + D + F + G) - (B + C + E + H)
  if 0 ≤ P then
    [if 0 ≤ F - B then (0, var0 + 2, F - B) else (var0 + 2, 1, B - F),
     if 0 ≤ G - E then (0, var1 + 2, G - E) else (var1 + 2, 1, E - G),
     if 0 ≤ D - C then (0, var2 + 2, D - C) else (var2 + 2, 0, C - D),
     (var1 + 2, var2 + 2, B + C - A - D),
     (var2 + 2, var0 + 2, B + E - A - F),
     (var0 + 2, var1 + 2, C + E - A - G),
     (var0 + 2, id + 2, P),
     (var1 + 2, id + 2, P),
     (var2 + 2, id + 2, P),
     (id, 1, P)]
  else
    [if 0 ≤ C - G then (var0 + 2, 1, C - G) else (0, var0 + 2, G - C),
     if 0 ≤ B - D then (var1 + 2, 1, B - D) else (0, var1 + 2, D - B),
     if 0 ≤ E - F then (var2 + 2, 1, E - F) else (0, var2 + 2, F - E),
     (var2 + 2, var1 + 2, F + G - E - H),
     (var0 + 2, var2 + 2, D + G - C - H),
     (var1 + 2, var0 + 2, D + F - B - H),
     (id + 2, var0 + 2, -P),
     (id + 2, var1 + 2, -P),
     (id + 2, var2 + 2, -P),
     (0, id + 2, -P)]

/-- graphcut.hxx 344-363 `tripleId`: the loop over the list, which counts up `numVariables_`. The result is the value of
`numVariables_` at the beginning of the call. -/
def tripleLoop (triple : Nat × Nat × Nat) : List (Nat × Nat × Nat) → Nat → Bool × Nat
  | [], numVariables => (false, numVariables)
  | t :: ts, numVariables => if triple = t then (true, numVariables) else tripleLoop triple ts (numVariables + 1)

/-- graphcut.hxx 344-363 `tripleId` -/
def tripleId (g : GC V) (triple : Nat × Nat × Nat) : Nat × GC V :=
  match tripleLoop triple g.tripleList g.numVariables with
  | (true, n) => (g.numVariables, { g with numVariables := n })
  | (false, n) => (g.numVariables, { g with numVariables := n, tripleList := g.tripleList ++ [triple] })

/-- The result of a sequence of requests as the outcome of `addFactor`. -/
def requested (g : GC V) (rs : List (Nat × Nat × V)) : Outcome (GC V) Unit :=
  match request g rs with
  | none => .ub
  | some g' => .ok () g'

/-- graphcut.hxx 164-318 `addFactor`; line 251 reads variable index 1 twice. -/
def addFactor (acc : Acc) (g : GC V) (f : FactorView V) : Outcome (GC V) Unit :=
  match f.vars with
  | [] => .ok () g
  | [var] =>
    match f.val [0], f.val [1] with
    | some v0, some v1 => requested g (unaryRequests acc var v0 v1)
    | _, _ => .ub
  | [var0, var1] =>
    match f.val [0, 0], f.val [0, 1], f.val [1, 0], f.val [1, 1] with
    | some A, some B, some C, some D => requested g (pairRequests g.tolerance acc var0 var1 A B C D)
    | _, _, _, _ => .ub
  | [var0, var1, _] =>
    let var2 := var1
    match f.val [0, 0, 0], f.val [0, 0, 1], f.val [0, 1, 0], f.val [0, 1, 1],
          f.val [1, 0, 0], f.val [1, 0, 1], f.val [1, 1, 0], f.val [1, 1, 1] with
    | some A, some B, some C, some D, some E, some F, some G, some H =>
      if acc = .minimizer then
        let r := tripleId g (var0, var1, var2)
        requested r.2 (tripleRequests r.1 var0 var1 var2 A B C D E F G H)
      else .throw g
    | _, _, _, _, _, _, _, _ => .ub
  | _ => .throw g

/-- Repeated calls of `addFactor`. -/
def addFactors (acc : Acc) (g : GC V) : List (FactorView V) → Outcome (GC V) Unit
  | [] => .ok () g
  | f :: fs =>
    match addFactor acc g f with
    | .ok _ g' => addFactors acc g' fs
    | .throw g' => .throw g'
    | .ub => .ub

/-- graphcut.hxx 92-118: the constructor from the number of variables; `numFacDim3` is `numFacDim[3]` or 0. Also the common
part of the other constructor. -/
def start (numVariables numFacDim3 : Nat) (scale tolerance : V) : GC V where
  tolerance := |tolerance|
  scale := scale
  network := ⟨2 + numVariables + numFacDim3, []⟩
  numVariables := numVariables
  numFacDim3 := numFacDim3
  tripleList := []
  state := []
  sEdges := List.replicate (numVariables + numFacDim3) 0
  tEdges := List.replicate (numVariables + numFacDim3) 0
  inferenceDone := false

/-- A factor of a graphical model. -/
def viewOf (gm : GM V) (f : FactorRec) : FactorView V := ⟨gm.scope f, gm.callFactor f⟩

/-- graphcut.hxx 120-156: the constructor from a graphical model. -/
def construct (acc : Acc) (gm : GM V) (scale tolerance : V) : Outcome (Option (GC V)) Unit :=
  if acc = .other then .throw none
  else if gm.numLabels.any (fun n => decide (n ≠ 2)) then .throw none
  else if gm.factors.any (fun f => decide (3 < f.visSize)) then .throw none
  else
    match addFactors acc (start gm.numberOfVariables (gm.factors.countP (fun f => decide (f.visSize = 3))) scale tolerance)
      (gm.factors.map (viewOf gm)) with
    | .ok _ g => .ok () (some g)
    | .throw _ => .throw none
    | .ub => .ub

/-- graphcut.hxx 376-379: the edges of source and sink, for the positions `is`. -/
def terminalEdges (sEdges tEdges : List V) : List Nat → Network V → Option (Network V)
  | [], n => some n
  | i :: is, n =>
    match sEdges[i]?, tEdges[i]? with
    | some s, some t =>
      match solverAddEdge n 0 (i + 2) s with
      | none => none
      | some n1 =>
        match solverAddEdge n1 (i + 2) 1 t with
        | none => none
        | some n2 => terminalEdges sEdges tEdges is n2
    | _, _ => none

/-- graphcut.hxx 371-384 `infer` -/
def infer (solver : Network V → List Bool → List Bool) (g : GC V) : Option (GC V) :=
  match terminalEdges g.sEdges g.tEdges (List.range g.sEdges.length) g.network with
  | none => none
  | some n => some { g with network := n, state := solver n g.state, inferenceDone := true }

/-- inference.hxx 17-23 -/
inductive Termination where
  | unknown
  | normal
  deriving DecidableEq

/-- `vec.resize(n, 0)` -/
def resized (l : List Nat) (n : Nat) : List Nat := l.take n ++ List.replicate (n - l.length) 0

/-- graphcut.hxx 394-412: the values of `state_` behind source and sink. -/
def readState (state : List Bool) : List Nat → Option (List Nat)
  | [] => some []
  | j :: js =>
    match state[j + 2]?, readState state js with
    | some b, some ls => some ((if b then 1 else 0) :: ls)
    | _, _ => none

/-- graphcut.hxx 386-413 `arg`; `old` is the vector passed in. -/
def arg (g : GC V) (old : List Nat) (n : Nat) : Option (Termination × List Nat) :=
  if g.inferenceDone = false then some (.unknown, resized old g.numVariables)
  else if 1 < n then some (.unknown, old)
  else
    match readState g.state (List.range (if 2 + g.numFacDim3 < g.state.length then g.state.length - 2 - g.numFacDim3 else 0)) with
    | none => none
    | some l => some (.normal, l)

end GraphCut
end OpenGM
