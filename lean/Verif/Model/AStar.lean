import Verif.Model.GraphicalModel
import Verif.Model.FactorOps
import Verif.Spec.Heap
/-
Model of include/opengm/inference/astar.hxx (class AStar), with NDEBUG (OPENGM_ASSERT does nothing).

`none` is undefined behaviour or a loop that does not end. `bop`, `accNeutral` and `accIneutral` are `ACC::bop`, `ACC::neutral` and `ACC::ineutral`;
`ACC::ibop(a, b)` is `bop b a`, as for Minimizer and Maximizer. The standard library's heap algorithms are an argument (Spec/Heap). The heuristic of STANDARDHEURISTIC
(belief propagation on an auxiliary model, astar.hxx 404-495) is an argument `standard`: the values for the labels of the next variable, given the
configuration; `aboveBound_`, which nothing reads, is left out. A visitor is any sequence of answers: `visit k` says whether the `k`-th call asks to stop.
`parameter_.maxHeapSize_*0.99` is computed exactly. Label and index types do not overflow.
-/
namespace OpenGM
namespace AStar
open Spec (Operation HeapAlgorithms)
variable {V : Type}

/-- astar.hxx 26-29: AStarNode. -/
structure Node (V : Type) where
  conf : List Nat
  value : V

/-- astar.hxx 99-142: Parameter; `heuristic` is 0 (DEFAULT), 1 (FAST) or 2 (STANDARD). -/
structure Parameter (V : Type) where
  maxHeapSize : Nat
  numberOfOpt : Nat
  objectiveBound : V
  heuristic : Nat
  nodeOrder : List Nat
  treeFactorIds : List Nat

/-- The template arguments and the environment: operation, order, neutral elements, value of `T()`, the heap algorithms and the heuristic that is not modelled. -/
structure Env (V : Type) where
  o : Operation V
  bop : V → V → Bool
  accNeutral : V
  accIneutral : V
  zero : V
  heap : HeapAlgorithms (Node V)
  standard : List Nat → Option (List V)

/-- operations/minimizer.hxx 38-40, maximizer.hxx: `ACC::op(in1, in2, out)`. -/
def Env.acc (e : Env V) (a b : V) : V := if e.bop a b then a else b

/-- astar.hxx 174-175: comp1. -/
def Env.comp (e : Env V) (a b : Node V) : Bool := e.bop b.value a.value

/-- astar.hxx 156-170: data members. `parameterInitial_`, `treeFactor_` and `numStates_` (the numbers of labels) are left out. -/
structure Solver (V : Type) where
  gm : GM V
  para : Parameter V
  isTree : List Bool
  optimized : List (Option (Marray.Arr V))
  array : List (Node V)
  optConf : List (List Nat)
  belowBound : V

/-- astar.hxx 219-229: the default order. `tmp` is sorted by (number of factors, variable) and read backwards. -/
def defaultOrder (gm : GM V) : Option (List Nat) :=
  match (List.range gm.numLabels.length).mapM (fun i => (gm.factorsOfVariable i).map (fun fs => (fs.length, i))) with
  | none => none
  | some tmp => some ((tmp.mergeSort (fun a b => decide (a.1 < b.1) || (decide (a.1 = b.1) && decide (a.2 ≤ b.2)))).reverse.map (·.2))

/-- astar.hxx 242-246: is factor `f` selected by default? `nodeOrder_.back()` is read for factors of two variables only. -/
def defaultTree (gm : GM V) (order : List Nat) (f : FactorRec) : Option Bool :=
  if f.visSize = 2 then
    match gm.visAt f 0, gm.visAt f 1, order.getLast? with
    | some a, some b, some c => some (a == c || b == c)
    | _, _, _ => none
  else some false

/-- astar.hxx 240-249: the default tree factors. -/
def defaultTrees (gm : GM V) (order : List Nat) : List FactorRec → Nat → Option (List Nat)
  | [], _ => some []
  | f :: fs, i =>
    match defaultTree gm order f, defaultTrees gm order fs (i + 1) with
    | some b, some rest => some (if b then i :: rest else rest)
    | _, _ => none

/-- A factor of the model as operand of accumulate. -/
def factorFn (gm : GM V) (f : FactorRec) : FactorOps.Fn V :=
  ⟨match gm.getFunction ⟨f.functionIndex, f.functionType⟩ with
    | some fn => fn.shape
    | none => [], gm.callFactor f⟩

/-- astar.hxx 254-263: one optimized factor: all variables but the first are accumulated. -/
def optimizedFactor (e : Env V) (gm : GM V) (f : FactorRec) : Option (Option (Marray.Arr V)) :=
  if f.visSize ≤ 1 then some none
  else
    (FactorOps.accumulateSome e.zero (fun x y => e.acc y x) e.accNeutral (factorFn gm f) (gm.scope f) ((gm.scope f).drop 1)).map (fun r => some r.1)

/-- astar.hxx 272-278: throw if a tree factor has more than two variables (`none`: the factor does not exist). -/
def treesPairwise (gm : GM V) : List Nat → Option Bool
  | [] => some true
  | f :: fs =>
    match gm.factors[f]? with
    | none => none
    | some fr => if 2 < fr.visSize then some false else treesPairwise gm fs

/-- astar.hxx 283-287: set the flags. -/
def setTrees : List Nat → List Bool → Option (List Bool)
  | [], flags => some flags
  | f :: fs, flags =>
    match setAt flags f true with
    | none => none
    | some flags' => setTrees fs flags'

/-- Result of the constructor: the object, an exception, or undefined behaviour. -/
inductive Constructed (V : Type) where
  | ok (s : Solver V)
  | throw
  | ub

/-- astar.hxx 200-205: the heuristic used. -/
def chosenHeuristic (gm : GM V) (para : Parameter V) : Nat :=
  if para.heuristic = 0 then (if gm.factorOrder ≤ 2 then 1 else 2) else para.heuristic

/-- astar.hxx 240-288: the constructor once the order is known. -/
def constructWith (e : Env V) (gm : GM V) (para : Parameter V) (order : List Nat) : Constructed V :=
  if order.length ≠ gm.numLabels.length then .throw
  else
    match (if para.treeFactorIds.length = 0 then defaultTrees gm order gm.factors 0 else some para.treeFactorIds) with
    | none => .ub
    | some trees =>
      match gm.factors.mapM (optimizedFactor e gm) with
      | none => .ub
      | some optimized =>
        match (if chosenHeuristic gm para = 1 then treesPairwise gm trees else some true) with
        | none => .ub
        | some false => .throw
        | some true =>
          match setTrees trees (List.replicate gm.factors.length false) with
          | none => .ub
          | some flags =>
            .ok ⟨gm, { para with heuristic := chosenHeuristic gm para, nodeOrder := order, treeFactorIds := trees }, flags, optimized, [⟨[], e.zero⟩], [], e.accIneutral⟩

/-- astar.hxx 192-289: constructor. -/
def construct (e : Env V) (gm : GM V) (para : Parameter V) : Constructed V :=
  match (if para.nodeOrder.length = 0 then defaultOrder gm else some para.nodeOrder) with
  | none => .ub
  | some order => constructWith e gm para order

/-! ### fastHeuristic -/

/-- Local variables of fastHeuristic (astar.hxx 523-526); the head of `queue` is the front of `factorList`. -/
structure Pass (V : Type) where
  energy : List (List V)
  degree : List Nat
  queue : List Nat

/-- astar.hxx 533-535: the labels of the variables that are fixed (`none` is -1). -/
def fixLabels : List Nat → List Nat → List (Option Nat) → Option (List (Option Nat))
  | _, [], ls => some ls
  | [], _ :: _, _ => none
  | v :: order, l :: conf, ls =>
    match setAt ls v (some l) with
    | none => none
    | some ls' => fixLabels order conf ls'

/-- `nodeEnergy[v].resize(1); OperatorType::op(x, nodeEnergy[v][0])` (astar.hxx 547-550, 567-573). A fixed variable has labels, so the vector is not empty. -/
def addFixed (o : Operation V) (energy : List (List V)) (v : Nat) (x : V) : Option (List (List V)) :=
  match energy[v]? with
  | some (y :: _) => some (energy.set v [o.op y x])
  | _ => none

/-- `for(j = 0; j < n; ++j) OperatorType::op(f(j), row[j])` on one vector (astar.hxx 554-558, 577-584, 589-596, 605-609). -/
def addRow (o : Operation V) (f : Nat → Option V) : List Nat → List V → Option (List V)
  | [], row => some row
  | j :: js, row =>
    match f j, row[j]? with
    | some x, some y => addRow o f js (row.set j (o.op y x))
    | _, _ => none

/-- The same on `nodeEnergy[v]`, for all labels of variable `v`. -/
def addEach (o : Operation V) (gm : GM V) (energy : List (List V)) (v : Nat) (f : Nat → Option V) : Option (List (List V)) :=
  match energy[v]?, gm.numLabels[v]? with
  | some row, some n =>
    match addRow o f (List.range n) row with
    | some row' => some (energy.set v row')
    | none => none
  | _, _ => none

/-- `++nodeDegree[v]` -/
def incr (degree : List Nat) (v : Nat) : Option (List Nat) :=
  match degree[v]? with
  | none => none
  | some d => some (degree.set v (d + 1))

/-- astar.hxx 605-609, 625-629: add the optimized factor to its first variable. -/
def addOptimized (o : Operation V) (s : Solver V) (energy : List (List V)) (i v : Nat) : Option (List (List V)) :=
  match s.optimized[i]? with
  | some (some a) => addEach o s.gm energy v (fun j => a.get [j])
  | _ => none

/-- astar.hxx 613-621: are all variables of the factor fixed? -/
def covered (gm : GM V) (labels : List (Option Nat)) (f : FactorRec) : Bool :=
  (gm.scope f).all (fun v => match labels[v]? with | some (some _) => true | _ => false)

/-- astar.hxx 540-632: one factor in the first run; the branch for more than two variables writes `f(0,...,0)`, because `state` is filled only for variables that are
not fixed. -/
def firstFactor (o : Operation V) (s : Solver V) (labels : List (Option Nat)) (i : Nat) (f : FactorRec) (p : Pass V) : Option (Pass V) :=
  if f.visSize = 0 then some p
  else if f.visSize = 1 then
    match s.gm.visAt f 0 with
    | none => none
    | some v =>
      match labels[v]? with
      | none => none
      | some (some l) =>
        match s.gm.callFactor f [l] with
        | none => none
        | some x => (addFixed o p.energy v x).map (fun en => { p with energy := en })
      | some none => (addEach o s.gm p.energy v (fun j => s.gm.callFactor f [j])).map (fun en => { p with energy := en })
  else if f.visSize = 2 then
    match s.gm.visAt f 0, s.gm.visAt f 1 with
    | some v1, some v2 =>
      match labels[v1]?, labels[v2]? with
      | some (some l1), some (some l2) =>
        match s.gm.callFactor f [l1, l2] with
        | none => none
        | some x => (addFixed o p.energy v1 x).map (fun en => { p with energy := en })
      | some (some l1), some none => (addEach o s.gm p.energy v2 (fun j => s.gm.callFactor f [l1, j])).map (fun en => { p with energy := en })
      | some none, some (some l2) => (addEach o s.gm p.energy v1 (fun j => s.gm.callFactor f [j, l2])).map (fun en => { p with energy := en })
      | some none, some none =>
        match s.isTree[i]? with
        | none => none
        | some true =>
          match incr p.degree v1 with
          | none => none
          | some d => (incr d v2).map (fun d' => { p with degree := d', queue := i :: p.queue })
        | some false => (addOptimized o s p.energy i v1).map (fun en => { p with energy := en })
      | _, _ => none
    | _, _ => none
  else
    match s.gm.visAt f 0 with
    | none => none
    | some v =>
      if covered s.gm labels f then
        match s.gm.callFactor f (List.replicate f.visSize 0), p.energy[v]? with
        | some x, some (_ :: row) => some { p with energy := p.energy.set v (x :: row) }
        | _, _ => none
      else (addOptimized o s p.energy i v).map (fun en => { p with energy := en })

/-- astar.hxx 540-632: the first run over all factors. -/
def firstRun (o : Operation V) (s : Solver V) (labels : List (Option Nat)) : List FactorRec → Nat → Pass V → Option (Pass V)
  | [], _, p => some p
  | f :: fs, i, p =>
    match firstFactor o s labels i f p with
    | none => none
    | some p' => firstRun o s labels fs (i + 1) p'

/-- astar.hxx 652-657, 670-676: the best of `op(f(j), row[j])` over the labels `j`. -/
def bestOver (e : Env V) (f : Nat → Option V) (row : List V) : List Nat → V → Option V
  | [], best => some best
  | j :: js, best =>
    match f j, row[j]? with
    | some x, some y => bestOver e f row js (e.acc best (e.o.op x y))
    | _, _ => none

/-- astar.hxx 647-665, 667-684: eliminate variable `leaf` with the factor `f leaf other` into variable `other`. -/
def eliminate (e : Env V) (gm : GM V) (f : Nat → Nat → Option V) (leaf other : Nat) (p : Pass V) : Option (Pass V) :=
  match p.energy[leaf]?, gm.numLabels[leaf]?, p.degree[leaf]?, p.degree[other]? with
  | some row, some n, some d1, some d2 =>
    match addEach e.o gm p.energy other (fun k => bestOver e (fun j => f j k) row (List.range n) e.accNeutral) with
    | none => none
    | some en => some { p with energy := en.set leaf [e.o.neutral], degree := (p.degree.set leaf (d1 - 1)).set other (d2 - 1) }
  | _, _, _, _ => none

/-- astar.hxx 634-689: the loop on `factorList`; running out of fuel means that it goes on. -/
def reduce (e : Env V) (gm : GM V) : Nat → Pass V → Option (Pass V)
  | fuel, p =>
    match p.queue with
    | [] => some p
    | id :: rest =>
      match fuel with
      | 0 => none
      | fuel + 1 =>
        match gm.factors[id]? with
        | none => none
        | some f =>
          match gm.visAt f 0, gm.visAt f 1 with
          | some v1, some v2 =>
            match p.degree[v1]?, p.degree[v2]? with
            | some d1, some d2 =>
              if d1 = 1 then
                match eliminate e gm (fun j k => gm.callFactor f [j, k]) v1 v2 { p with queue := rest } with
                | none => none
                | some p' => reduce e gm fuel p'
              else if d2 = 1 then
                match eliminate e gm (fun j k => gm.callFactor f [k, j]) v2 v1 { p with queue := rest } with
                | none => none
                | some p' => reduce e gm fuel p'
              else reduce e gm fuel { p with queue := rest ++ [id] }
            | _, _ => none
          | _, _ => none

/-- astar.hxx 691-703: the best values of all variables but `next` combined. -/
def combine (e : Env V) (next : Nat) : List (List V) → Nat → V → V
  | [], _, result => result
  | row :: rows, i, result => combine e next rows (i + 1) (if i = next then result else e.o.op result (row.foldl e.acc e.accNeutral))

/-- astar.hxx 519-710: fastHeuristic. If the loop ends, it does so within `m (m + 1)` rounds, `m` the length of the queue (`reduce_spec`; `C64_violated_parallel` is a loop that does not end for any number of rounds). -/
def fastHeuristic (e : Env V) (s : Solver V) (conf : List Nat) : Option (List V) :=
  match s.para.nodeOrder[conf.length]?, fixLabels s.para.nodeOrder conf (List.replicate s.gm.numLabels.length none) with
  | some next, some labels =>
    match firstRun e.o s labels s.gm.factors 0 ⟨s.gm.numLabels.map (fun n => List.replicate n e.o.neutral), List.replicate s.gm.numLabels.length 0, []⟩ with
    | none => none
    | some p =>
      match p.degree[next]? with
      | none => none
      | some d =>
        match reduce e s.gm (p.queue.length * (p.queue.length + 1)) { p with degree := p.degree.set next (d + s.gm.numLabels.length) } with
        | none => none
        | some p' => (p'.energy[next]?).map (fun row => row.map (fun x => e.o.op x (combine e next p'.energy 0 e.o.neutral)))
  | _, _ => none

/-! ### expand and infer -/

/-- astar.hxx 483-493, 504-514: push the node for each label of the next variable. -/
def pushLabels (e : Env V) (conf : List Nat) (bound : List V) : List Nat → List (Node V) → Option (List (Node V))
  | [], array => some array
  | i :: is, array =>
    match bound[i]? with
    | none => none
    | some b => pushLabels e conf bound is (e.heap.push (array ++ [⟨conf ++ [i], b⟩]))

/-- astar.hxx 391-395: limit the size of the heap. `resize` does not make the array longer (the condition says so, except for an empty heap). -/
def trim (e : Env V) (maxHeapSize : Nat) (array : List (Node V)) : List (Node V) :=
  if 100 * array.length > 99 * maxHeapSize then (e.heap.partialSort (maxHeapSize / 2) array).take (maxHeapSize / 2) else array

/-- astar.hxx 404-498: the values for the labels of the next variable. -/
def heuristic (e : Env V) (s : Solver V) (conf : List Nat) : Option (List V) :=
  if s.para.heuristic = 2 then e.standard conf else fastHeuristic e s conf

/-- astar.hxx 387-517: expand. (For any other value of the heuristic nothing would be pushed; the assertion of the constructor excludes it.) -/
def expand (e : Env V) (s : Solver V) (array : List (Node V)) : Option (List (Node V)) :=
  match trim e s.para.maxHeapSize array with
  | [] => none
  | a :: rest =>
    match heuristic e s a.conf, s.para.nodeOrder[a.conf.length]? with
    | some bound, some next =>
      match s.gm.numLabels[next]? with
      | none => none
      | some n => pushLabels e a.conf bound (List.range n) (e.heap.pop (a :: rest)).dropLast
    | _, _ => none

/-- State of infer: the heap, the bound, whether the visitor asked to stop and how often it was called. -/
structure Run (V : Type) where
  array : List (Node V)
  belowBound : V
  stop : Bool
  calls : Nat

/-- astar.hxx 317-322: `while(array_.front().conf.size() < numNodes_ && exitFlag==0)`. -/
def expandLoop (e : Env V) (s : Solver V) (visit : Nat → Bool) : Nat → Run V → Option (Run V)
  | fuel, r =>
    match r.array with
    | [] => none
    | a :: _ =>
      if a.conf.length < s.gm.numLabels.length ∧ r.stop = false then
        match fuel with
        | 0 => none
        | fuel + 1 =>
          match expand e s r.array with
          | none => none
          | some [] => none
          | some (b :: array) => expandLoop e s visit fuel ⟨b :: array, b.value, visit r.calls, r.calls + 1⟩
      else some r

/-- astar.hxx 326-329: the labeling of a complete node. -/
def unorder : List Nat → List Nat → List Nat → Option (List Nat)
  | [], _, x => some x
  | _ :: _, [], _ => none
  | v :: order, l :: conf, x =>
    match setAt x v l with
    | none => none
    | some x' => unorder order conf x'

/-- astar.hxx 311-344: the loop; the result is the state, the labelings found, and whether NORMAL is returned. -/
def inferLoop (e : Env V) (s : Solver V) (visit : Nat → Bool) (inner : Nat) : Nat → Run V → List (List Nat) → Option (Run V × List (List Nat) × Bool)
  | fuel, r, found =>
    if r.array.length > 0 ∧ r.stop = false then
      if s.para.numberOfOpt = found.length then some (r, found, true)
      else
        match fuel with
        | 0 => none
        | fuel + 1 =>
          match expandLoop e s visit inner r with
          | none => none
          | some r1 =>
            match r1.array with
            | [] => none
            | a :: _ =>
              if s.gm.numLabels.length ≤ a.conf.length then
                match unorder s.para.nodeOrder a.conf (List.replicate s.gm.numLabels.length 0) with
                | none => none
                | some x =>
                  if e.bop s.para.objectiveBound a.value then some (⟨r1.array, a.value, r1.stop, r1.calls + 1⟩, found ++ [x], true)
                  else inferLoop e s visit inner fuel ⟨(e.heap.pop r1.array).dropLast, a.value, r1.stop, r1.calls + 1⟩ (found ++ [x])
              else inferLoop e s visit inner fuel { r1 with array := (e.heap.pop r1.array).dropLast } found
    else some (r, found, false)

/-- Number of nodes below (and including) a node whose open variables have the given numbers of labels. -/
def treeSize : List Nat → Nat
  | [] => 1
  | n :: ns => 1 + n * treeSize ns

/-- Each round takes one node of the search tree off the heap for good. -/
def fuel (s : Solver V) (array : List (Node V)) : Nat :=
  (array.map (fun a => treeSize ((s.para.nodeOrder.drop a.conf.length).map (fun v => (s.gm.numLabels[v]?).elim 0 id)))).foldl (· + ·) 0

/-- astar.hxx 305-345: infer; the flag says whether NORMAL (and not UNKNOWN) is returned. -/
def infer (e : Env V) (s : Solver V) (visit : Nat → Bool) : Option (Bool × Solver V) :=
  match inferLoop e s visit (fuel s s.array) (fuel s s.array) ⟨s.array, s.belowBound, false, 0⟩ [] with
  | none => none
  | some (r, found, normal) => some (normal, { s with array := r.array, belowBound := r.belowBound, optConf := found })

/-- astar.hxx 347-356: value. -/
def value (e : Env V) (s : Solver V) : Option V :=
  match s.optConf with
  | [] => some e.accNeutral
  | x :: _ => GM.evaluate e.o s.gm x

/-- astar.hxx 358-370: arg(conf, n) for a vector `conf` handed in; the flag says whether NORMAL is returned. -/
def arg (s : Solver V) (conf : List Nat) (n : Nat) : Option (Bool × List Nat) :=
  if n > s.optConf.length then some (false, conf.take s.gm.numLabels.length ++ List.replicate (s.gm.numLabels.length - conf.length) 0)
  else if n = 0 then none
  else (s.optConf[n - 1]?).map (fun x => (true, x))

/-- astar.hxx 376-385: args. -/
def args (s : Solver V) : List (List Nat) := s.optConf

/-- astar.hxx 150: bound. -/
def bound (s : Solver V) : V := s.belowBound

/-- astar.hxx 291-302: reset does nothing (`todo`). -/
def reset (s : Solver V) : Solver V := s

/-- A caller that calls `infer()` `k` times and `args` after each call: the labelings that each call returned, and the object. -/
def inferTimes (e : Env V) : Nat → Solver V → Option (List (List (List Nat)) × Solver V)
  | 0, s => some ([], s)
  | k + 1, s =>
    match inferTimes e k s with
    | none => none
    | some (chunks, s1) =>
      match infer e s1 (fun _ => false) with
      | none => none
      | some (_, s2) => some (chunks ++ [args s2], s2)

end AStar
end OpenGM
