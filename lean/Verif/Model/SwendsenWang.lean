import Verif.Model.Movemaker
import Verif.Model.FactorGraph
import Verif.Model.AStar
import Verif.Model.Partition
import Mathlib.Algebra.Order.Field.Basic
/-
Model of include/opengm/inference/swendsenwang.hxx: class SwendsenWang.

Probabilities are elements of a linearly ordered field `F` (double in the code); `convert` is ValueToProbability. Random numbers are arguments. `none` is undefined behaviour, or a division by zero (which gives an infinity or
NaN in the code).
-/
namespace OpenGM.SwendsenWang
open Spec (InvOperation)
open FactorOps Walkers
variable {V F : Type}

/-- swendsenwang.hxx 126-148: Parameter. -/
structure Parameter (F : Type) where
  maxNumberOfSamplingSteps : Nat
  numberOfBurnInSteps : Nat
  lowestAllowedProbability : F
  initialState : List Nat

/-- swendsenwang.hxx 171-177: data members. -/
structure Obj (V F : Type) where
  parameter : Parameter F
  gm : GM V
  movemaker : Movemaker V
  variableAdjacency : List (List Nat)
  edgeProbabilities : List (List F)
  currentBestState : List Nat
  currentBestValue : V

/-- What the class gets from OperatorType and AccumulationType: the operation, whether it is Multiplier, ACC::bop, `T()`, and ValueToProbability. -/
structure Ops (V F : Type) where
  o : InvOperation V
  multiplier : Bool
  bop : V → V → Bool
  zero : V
  convert : V → F

/-- swendsenwang.hxx 459-466: the factors of one variable and their variables are inserted into the two sets. -/
def collectFactors (gm : GM V) : List Nat → List Nat × List Nat → Option (List Nat × List Nat)
  | [], s => some s
  | f :: fs, s =>
    match gm.factors[f]? with
    | none => none
    | some fac => collectFactors gm fs (Movemaker.setUnion s.1 [f], Movemaker.setUnion s.2 (gm.scope fac))

/-- swendsenwang.hxx 453-467: `factors` and `connectedVariables` of the variables `vs` (two of them). -/
def collectConnected (gm : GM V) : List Nat → List Nat × List Nat → Option (List Nat × List Nat)
  | [], s => some s
  | v :: vs, s =>
    match gm.adj[v]? with
    | none => none
    | some fs =>
      match collectFactors gm fs s with
      | none => none
      | some s => collectConnected gm vs s

/-- swendsenwang.hxx 491-493: all factors are operated to the local factor. -/
def operateAll (q : Ops V F) (gm : GM V) : List Nat → IFactor V → Option (IFactor V)
  | [], L => some L
  | f :: fs, L =>
    match gm.factors[f]? with
    | none => none
    | some fac =>
      match binaryInplace q.zero q.o.op L.fn (AStar.factorFn gm fac) L.vars (gm.scope fac) with
      | none => none
      | some (fn, vars) => operateAll q gm fs ⟨vars, fn⟩

/-- swendsenwang.hxx 496-504: the positions of the two variables, from the pair (0, 0). -/
def positions (v0 v1 : Nat) (vars : List Nat) : Nat × Nat :=
  (vars.zip (List.range vars.length)).foldl (fun i e => if e.1 = v0 then (e.2, i.2) else if e.1 = v1 then (i.1, e.2) else i) (0, 0)

section
variable [Field F] [LinearOrder F]

/-- swendsenwang.hxx 505-518: the sums `probEqual` and `probUnequal`. (The other sum is increased by 0.) -/
def sums (q : Ops V F) (L : IFactor V) (i : Nat × Nat) : Option (F × F) :=
  accLoop (fun x acc => (acc.1 + x.1, acc.2 + x.2)) (shapeWalkerNext L.fn.geometry.shape)
    (fun c =>
      match L.fn.get c, c[i.1]?, c[i.2]? with
      | some value, some a, some b => if a = b then some (q.convert value, 0) else some (0, q.convert value)
      | _, _, _ => none)
    L.fn.geometry.size (shapeWalkerInit L.fn.geometry.shape) (0, 0)

/-- swendsenwang.hxx 446-532: `probUnequal` for two adjacent variables with the same number of labels, or an exception. -/
def edgeProbability (q : Ops V F) (lowest : F) (gm : GM V) (v0 v1 : Nat) : Outcome Unit F :=
  match collectConnected gm [v0, v1] ([], []) with
  | none => .ub
  | some (factors, vars) =>
    match vars.mapM (fun v => gm.numLabels[v]?) with
    | none => .ub
    | some labels =>
      match (constant q.zero vars labels q.o.neutral).bind (operateAll q gm factors) with
      | none => .ub
      | some L =>
        match sums q L (positions v0 v1 L.vars) with
        | none => .ub
        | some (probEqual, probUnequal) =>
          let sum := probEqual + probUnequal
          if sum = 0 then .throw ()
          else if probEqual / sum < lowest ∨ probUnequal / sum < lowest then .throw ()
          else .ok (probUnequal / sum) ()

/-- The pairs of a variable and a position in its list of adjacent variables, in the order of the loops (437-439, 553-555). -/
def edges (adjacency : List (List Nat)) : List (Nat × Nat) :=
  (adjacency.zip (List.range adjacency.length)).flatMap (fun e => (List.range e.1.length).map (fun j => (e.2, j)))

/-- Reading `t[i][j]`. -/
def entry {A : Type} (t : List (List A)) (i j : Nat) : Option A := (t[i]?).bind (fun r => r[j]?)

/-- `t[i][j] = a`. -/
def setEntry {A : Type} (t : List (List A)) (i j : Nat) (a : A) : Option (List (List A)) :=
  match t[i]? with
  | none => none
  | some r => if j < r.length then some (t.set i (r.set j a)) else none

/-- swendsenwang.hxx 431-541 `computeEdgeProbabilities`: the loops, on the probabilities stored so far. -/
def computeEdgeProbabilities (q : Ops V F) (lowest : F) (gm : GM V) (adjacency : List (List Nat)) : List (Nat × Nat) → List (List F) → Outcome (List (List F)) Unit
  | [], t => .ok () t
  | (v0, j) :: es, t =>
    match entry adjacency v0 j with
    | none => .ub
    | some v1 =>
      match gm.numLabels[v0]?, gm.numLabels[v1]? with
      | some n0, some n1 =>
        if n0 = n1 then
          match edgeProbability q lowest gm v0 v1 with
          | .ub => .ub
          | .throw _ => .throw t
          | .ok p _ =>
            match setEntry t v0 j p with
            | none => .ub
            | some t => computeEdgeProbabilities q lowest gm adjacency es t
        else computeEdgeProbabilities q lowest gm adjacency es t
      | _, _ => .ub

/-- swendsenwang.hxx 180-203: constructor. `currentBestState_` has the labels 0. -/
def construct (q : Ops V F) (gm : GM V) (parameter : Parameter F) : Outcome Unit (Obj V F) :=
  match if parameter.initialState.length = gm.numberOfVariables then Movemaker.ofLabels q.o gm parameter.initialState else Movemaker.ofModel q.o gm with
  | none => .ub
  | some m =>
    if parameter.initialState.length ≠ 0 ∧ parameter.initialState.length ≠ gm.numberOfVariables then .throw ()
    else
      match gm.factorGraph.variableAdjacencyList with
      | none => .ub
      | some adjacency =>
        match computeEdgeProbabilities q parameter.lowestAllowedProbability gm adjacency (edges adjacency) (adjacency.map (fun l => List.replicate l.length 0)) with
        | .ub => .ub
        | .throw _ => .throw ()
        | .ok _ t => .ok ⟨parameter, gm, m, adjacency, t, List.replicate gm.numberOfVariables 0, m.value⟩ ()

/-- swendsenwang.hxx 205-224 `reset`. -/
def reset (q : Ops V F) (g : Obj V F) : Outcome (Obj V F) Unit :=
  match (if g.parameter.initialState.length = g.gm.numberOfVariables then
      (g.movemaker.initializeFrom q.o g.parameter.initialState).map (fun m => some { g with movemaker := m, currentBestState := g.parameter.initialState })
    else if g.parameter.initialState.length ≠ 0 then some none
    else (g.movemaker.reset q.o).map (fun m => some { g with movemaker := m, currentBestState := List.replicate g.currentBestState.length 0 })) with
  | none => .ub
  | some none => .throw g
  | some (some g) =>
    let g := { g with currentBestValue := g.movemaker.value }
    match computeEdgeProbabilities q g.parameter.lowestAllowedProbability g.gm g.variableAdjacency (edges g.variableAdjacency) g.edgeProbabilities with
    | .ub => .ub
    | .throw t => .throw { g with edgeProbabilities := t }
    | .ok _ t => .ok () { g with edgeProbabilities := t }

/-- The random numbers of one pass: for the pairs of adjacent variables, the cluster, the label, and the acceptance. -/
structure Draw (F : Type) where
  edge : Nat → Nat → F
  cluster : Nat
  label : Nat
  acceptance : F

/-- swendsenwang.hxx 543-568 `cluster`: the loops. -/
def clusterLoop (g : Obj V F) (d : Draw F) : List (Nat × Nat) → Partition → Option Partition
  | [], P => some P
  | (v0, j) :: es, P =>
    match entry g.variableAdjacency v0 j with
    | none => none
    | some v1 =>
      if v0 < v1 then
        match g.movemaker.state[v0]?, g.movemaker.state[v1]?, entry g.edgeProbabilities v0 j with
        | some l0, some l1, some p =>
          if l0 = l1 ∧ p > d.edge v0 v1 then
            match P.merge v0 v1 with
            | none => none
            | some P => clusterLoop g d es P
          else clusterLoop g d es P
        | _, _, _ => none
      else clusterLoop g d es P

/-- The state of the search in lines 252-274. -/
structure Search where
  partition : Partition
  visited : List Bool
  stack : List Nat
  variablesInCluster : List Nat
  variablesAroundCluster : List Nat

/-- swendsenwang.hxx 262-273: the loop over the adjacent variables. -/
def searchAdjacent (representative : Nat) : List Nat → Search → Option Search
  | [], s => some s
  | w :: ws, s =>
    match s.visited[w]? with
    | none => none
    | some true => searchAdjacent representative ws s
    | some false =>
      match s.partition.find w with
      | none => none
      | some (r, P) =>
        let s := { s with partition := P, visited := s.visited.set w true }
        if r = representative then searchAdjacent representative ws { s with stack := w :: s.stack }
        else searchAdjacent representative ws { s with variablesAroundCluster := s.variablesAroundCluster ++ [w] }

/-- swendsenwang.hxx 258-275: the search; `fuel` bounds the passes. -/
def search (adjacency : List (List Nat)) (representative : Nat) : Nat → Search → Option Search
  | 0, _ => none
  | fuel + 1, s =>
    match s.stack with
    | [] => some s
    | v :: stack =>
      match adjacency[v]? with
      | none => none
      | some ws =>
        match searchAdjacent representative ws { s with stack := stack, variablesInCluster := s.variablesInCluster ++ [v] } with
        | none => none
        | some s => search adjacency representative fuel s

/-- swendsenwang.hxx 278-283: `visited[v] = false` for the listed variables. -/
def clean : List Nat → List Bool → Option (List Bool)
  | [], b => some b
  | v :: vs, b => if v < b.length then clean vs (b.set v false) else none

/-- swendsenwang.hxx 319-324, 327-332: the factors `1 - p` for the edges from `vi` into the cluster. -/
def proposalLoop (g : Obj V F) (representative vi : Nat) : List (Nat × Nat) → Partition → F → Option (Partition × F)
  | [], P, x => some (P, x)
  | (nvi, k) :: es, P, x =>
    match P.find nvi with
    | none => none
    | some (r, P) =>
      if r = representative then
        match entry g.edgeProbabilities vi k with
        | none => none
        | some p => proposalLoop g representative vi es P (x * (1 - p))
      else proposalLoop g representative vi es P x

/-- swendsenwang.hxx 315-334: `currentValueProposal` and `targetValueProposal`. -/
def proposals (g : Obj V F) (representative targetLabel : Nat) : List Nat → Partition → F × F → Option (F × F)
  | [], _, x => some x
  | vi :: vs, P, x =>
    match g.movemaker.state[vi]?, g.movemaker.state[representative]?, g.variableAdjacency[vi]? with
    | some l, some old, some ws =>
      if l = old then
        match proposalLoop g representative vi (ws.zip (List.range ws.length)) P x.1 with
        | none => none
        | some (P, c) => proposals g representative targetLabel vs P (c, x.2)
      else if l = targetLabel then
        match proposalLoop g representative vi (ws.zip (List.range ws.length)) P x.2 with
        | none => none
        | some (P, t) => proposals g representative targetLabel vs P (x.1, t)
      else proposals g representative targetLabel vs P x
    | _, _, _ => none

/-- swendsenwang.hxx 408-428 `move`. -/
def move (q : Ops V F) (burnedIn : Bool) (vars labels : List Nat) (g : Obj V F) : Option (Obj V F) :=
  match g.movemaker.move q.o q.multiplier vars labels with
  | none => none
  | some (_, m) =>
    if burnedIn && q.bop m.value g.currentBestValue then
      if m.state.length ≤ g.currentBestState.length then some { g with movemaker := m, currentBestValue := m.value, currentBestState := m.state ++ g.currentBestState.drop m.state.length }
      else none
    else some { g with movemaker := m }

/-- What the visitor is told: the size of the cluster, accepted, and burning in; with the Markov state. -/
structure Seen where
  clusterSize : Nat
  accepted : Bool
  burningIn : Bool
  state : List Nat

/-- utilities/random.hxx 83-93: `rand() % high`. -/
def uniform (r high : Nat) : Option Nat := if high = 0 then none else some (r % high)

/-- swendsenwang.hxx 293-354: relabel the cluster, or not. -/
def relabel (q : Ops V F) (burning : Bool) (d : Draw F) (representative targetLabel : Nat) (s : Search) (g : Obj V F) : Option (Obj V F × Seen) :=
  let vars := s.variablesInCluster
  let labels := List.replicate vars.length targetLabel
  if burning then
    match move q false vars labels g with
    | none => none
    | some g => some (g, ⟨vars.length, true, true, g.movemaker.state⟩)
  else
    match g.movemaker.valueAfterMove q.o q.multiplier vars labels with
    | none => none
    | some (value, m) =>
      let currentPDF := q.convert g.movemaker.value
      let targetPDF := q.convert value
      let g := { g with movemaker := m }
      match proposals g representative targetLabel s.variablesAroundCluster s.partition (1, 1) with
      | none => none
      | some (currentValueProposal, targetValueProposal) =>
        if currentValueProposal = 0 ∨ currentPDF = 0 then none
        else
          let probability := (targetValueProposal / currentValueProposal) * (targetPDF / currentPDF)
          if probability ≥ 1 ∨ probability ≥ d.acceptance then
            match move q true vars labels g with
            | none => none
            | some g => some (g, ⟨vars.length, true, false, g.movemaker.state⟩)
          else some (g, ⟨vars.length, false, false, g.movemaker.state⟩)

/-- swendsenwang.hxx 244-292: one pass of the loop. -/
def step (q : Ops V F) (burning : Bool) (d : Draw F) (visited : List Bool) (g : Obj V F) : Option (Obj V F × List Bool × Seen) :=
  match clusterLoop g d (edges g.variableAdjacency) (Partition.ofSize g.gm.numberOfVariables) with
  | none => none
  | some P =>
    match (uniform d.cluster P.numberOfSets).bind (fun i => P.representatives[i]?) with
    | none => none
    | some representative =>
      if representative < visited.length then
        match search g.variableAdjacency representative (g.gm.numberOfVariables + 1) ⟨P, visited.set representative true, [representative], [], []⟩ with
        | none => none
        | some s =>
          match (clean s.variablesInCluster s.visited).bind (clean s.variablesAroundCluster), (g.gm.numLabels[representative]?).bind (uniform d.label) with
          | some visited, some targetLabel =>
            match relabel q burning d representative targetLabel s g with
            | none => none
            | some (g, seen) => some (g, visited, seen)
          | _, _ => none
      else none

/-- swendsenwang.hxx 243-355: the loop from pass `j` on, `n` passes. -/
def loop (q : Ops V F) (draw : Nat → Draw F) : Nat → Nat → List Bool → Obj V F → Option (Obj V F × List Seen)
  | 0, _, _, g => some (g, [])
  | n + 1, j, visited, g =>
    match step q (j < g.parameter.numberOfBurnInSteps) (draw j) visited g with
    | none => none
    | some (g, visited, seen) =>
      match loop q draw n (j + 1) visited g with
      | none => none
      | some (g, rest) => some (g, seen :: rest)

/-- swendsenwang.hxx 229-358 `infer`. -/
def infer (q : Ops V F) (draw : Nat → Draw F) (g : Obj V F) : Option (Obj V F × List Seen) :=
  loop q draw (g.parameter.numberOfBurnInSteps + g.parameter.maxNumberOfSamplingSteps) 0 (List.replicate g.gm.numberOfVariables false) g

end

/-- swendsenwang.hxx 368-383 `arg`. -/
def arg (g : Obj V F) : List Nat := g.currentBestState

end OpenGM.SwendsenWang
