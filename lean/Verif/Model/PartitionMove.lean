import Verif.Model.GraphicalModel
import Verif.Model.Functions
import Mathlib.Data.Rat.Defs
import Mathlib.Algebra.Order.Ring.Rat
/-
Model of include/opengm/inference/partition-move.hxx (class PartitionMove): the Kernighan-Lin heuristic for partitioning models.

Simplifications: `double` is the field of rational numbers (no rounding), and infinity is `none`. A hash set is the list of its elements, a hash map the list of its entries; the
order in which the elements of a hash set are visited is any function `iter` that permutes the list. `isPotts` of a factor is the implementation of the class FunctionBase. Not
modelled: output, the parameter object (it is empty) and the unused variables `numberOfTerminals_` and `d`.
-/
namespace OpenGM
namespace PartitionMove
open Functions

/-- partition-move.hxx 84 `ProblemType`. -/
inductive Kind where
  | invalid
  | mc
  | mwc
deriving DecidableEq

/-- partition-move.hxx 86-99: the data members that change; `neighbours_` as lists of (neighbour, index of the edge). -/
structure State where
  neighbours : List (List (Nat × Nat))
  edgeWeight : List ℚ
  constant : ℚ
  states : List Nat

/-! ### the constructor -/

/-- The function of a factor as the classes of functions show it. -/
def factorFun (gm : GM ℚ) (f : FactorRec) : Option (Fun ℚ) :=
  (gm.getFunction ⟨f.functionIndex, f.functionType⟩).map (fun fn => ⟨fn.shape, fn.shape.foldl (· * ·) 1, callFn fn⟩)

/-- `gm_[f].isPotts()`. -/
def factorIsPotts (gm : GM ℚ) (f : FactorRec) : Option Bool := (factorFun gm f).bind isPotts

/-- 128-133: the loop over the variables. -/
def labelKind (gm : GM ℚ) : Kind := if gm.numLabels.any (fun k => decide (k < gm.numberOfVariables)) then .mwc else .mc

/-- 134-152: the loop over the factors; `e` is `numberOfInternalEdges_`. -/
def scanFactors (gm : GM ℚ) : List FactorRec → Kind → Nat → Option (Kind × Nat)
  | [], k, e => some (k, e)
  | f :: fs, k, e =>
    if f.visSize = 0 then scanFactors gm fs k e
    else if f.visSize = 1 then scanFactors gm fs .mwc e
    else if f.visSize = 2 then
      match factorIsPotts gm f with
      | none => none
      | some false => some (.invalid, e + 1)
      | some true => scanFactors gm fs k (e + 1)
    else some (.invalid, e)

/-- `m[k] = v` for a hash map. -/
def mapSet (m : List (Nat × Nat)) (k v : Nat) : List (Nat × Nat) :=
  if m.any (fun e => e.1 == k) then m.map (fun e => if e.1 == k then (k, v) else e) else m ++ [(k, v)]

/-- `neighbours_[u][v] = e`. -/
def setNeighbour (nb : List (List (Nat × Nat))) (u v e : Nat) : Option (List (List (Nat × Nat))) :=
  match nb[u]? with
  | none => none
  | some m => setAt nb u (mapSet m v e)

/-- 166-185: the loop that reads the factors; `e` is the local `numberOfInternalEdges`. -/
def addEdges (gm : GM ℚ) : List FactorRec → Nat → State → Outcome Unit State
  | [], _, st => .ok st ()
  | f :: fs, e, st =>
    if f.visSize = 0 then
      match gm.callFactor f [0] with
      | none => .ub
      | some c => addEdges gm fs e { st with constant := st.constant + c }
    else if f.visSize = 2 then
      match gm.callFactor f [0, 1], gm.callFactor f [0, 0], st.edgeWeight[e]?, gm.visAt f 0, gm.visAt f 1 with
      | some c1, some c0, some w, some u, some v =>
        match setAt st.edgeWeight e (w + (c1 - c0)), (setNeighbour st.neighbours u v e).bind (fun nb => setNeighbour nb v u e) with
        | some ws, some nb => addEdges gm fs (e + 1) { st with edgeWeight := ws, constant := st.constant + c0, neighbours := nb }
        | _, _ => .ub
      | _, _, _, _, _ => .ub
    else .throw ()

/-- State of the search in 197-222. -/
structure Search where
  states : List Nat
  assigned : List Bool
  queue : List Nat

/-- 210-217: the loop over the neighbours of a node. -/
def visitNeighbours (ws : List ℚ) (p : Nat) : List (Nat × Nat) → Search → Option Search
  | [], s => some s
  | (node2, e) :: nb, s =>
    match s.assigned[node2]? with
    | none => none
    | some true => visitNeighbours ws p nb s
    | some false =>
      match ws[e]? with
      | none => none
      | some w =>
        if w > 0 then
          match setAt s.states node2 p, setAt s.assigned node2 true with
          | some st, some as => visitNeighbours ws p nb ⟨st, as, s.queue ++ [node2]⟩
          | _, _ => none
        else visitNeighbours ws p nb s

/-- 208-218: the loop over the queue. The first argument bounds the number of iterations; `none` also if it does not suffice. -/
def drain (nbs : List (List (Nat × Nat))) (ws : List ℚ) (p : Nat) : Nat → Search → Option Search
  | fuel, s =>
    match s.queue with
    | [] => some s
    | n :: queue =>
      match fuel with
      | 0 => none
      | fuel + 1 =>
        match nbs[n]? with
        | none => none
        | some nb =>
          match visitNeighbours ws p nb { s with queue := queue } with
          | none => none
          | some s' => drain nbs ws p fuel s'

/-- 200-221: the loop over the nodes. -/
def initLoop (nbs : List (List (Nat × Nat))) (ws : List ℚ) (n : Nat) : List Nat → Nat → Search → Option Search
  | [], _, s => some s
  | node :: nodes, p, s =>
    match s.assigned[node]? with
    | none => none
    | some true => initLoop nbs ws n nodes p s
    | some false =>
      match setAt s.states node p, setAt s.assigned node true with
      | some st, some as =>
        match drain nbs ws p (n + 1) ⟨st, as, [node]⟩ with
        | none => none
        | some s' => initLoop nbs ws n nodes (p + 1) s'
      | _, _ => none

/-- 113-231: the constructor, for the min-sum semiring. -/
def construct (gm : GM ℚ) : Outcome Unit State :=
  let n := gm.numberOfVariables
  match gm.numLabels[0]? with
  | none => .ub
  | some _ =>
    match scanFactors gm gm.factors (labelKind gm) 0 with
    | none => .ub
    | some (.invalid, _) => .throw ()
    | some (.mwc, _) => .throw ()
    | some (.mc, e) =>
      match addEdges gm gm.factors 0 ⟨List.replicate n [], List.replicate e 0, 0, []⟩ with
      | .ub => .ub
      | .throw _ => .throw ()
      | .ok st _ =>
        match initLoop st.neighbours st.edgeWeight n (List.range n) 0 ⟨List.replicate n 0, List.replicate n false, []⟩ with
        | none => .ub
        | some s => .ok { st with states := s.states } ()

/-! ### solveBinaryKL -/

/-- 360-370: `E_a` and `I_a` of a node: the weights of the edges to `other` and to `mine`. -/
def sums (ws : List ℚ) (mine other : List Nat) : List (Nat × Nat) → ℚ × ℚ → Option (ℚ × ℚ)
  | [], r => some r
  | (node2, e) :: nb, (ext, int) =>
    match ws[e]? with
    | none => none
    | some weight =>
      if node2 ∈ mine then sums ws mine other nb (ext, int + weight)
      else if node2 ∈ other then sums ws mine other nb (ext + weight, int)
      else sums ws mine other nb (ext, int)

/-- 356-372 (and 373-389): `D[node] = -(E_a - I_a)` for the nodes of a set. -/
def fillD (st : State) (mine other : List Nat) : List Nat → List ℚ → Option (List ℚ)
  | [], D => some D
  | node :: nodes, D =>
    match st.neighbours[node]? with
    | none => none
    | some nb =>
      match sums st.edgeWeight mine other nb (0, 0) with
      | none => none
      | some (ext, int) =>
        match setAt D node (-(ext - int)) with
        | none => none
        | some D' => fillD st mine other nodes D'

/-- 411-422 (and 424-435): the search for the best move in a set; the result is `improve` and `node`, or `none` while `improve` is infinite. -/
def searchSet (D : List ℚ) (moved : List Bool) : List Nat → Option (ℚ × Nat) → Option (Option (ℚ × Nat))
  | [], best => some best
  | v :: vs, best =>
    match moved[v]?, D[v]? with
    | some true, _ => searchSet D moved vs best
    | some false, some d =>
      match best with
      | none => searchSet D moved vs (some (d, v))
      | some (improve, node) => if d < improve then searchSet D moved vs (some (d, v)) else searchSet D moved vs (some (improve, node))
    | _, _ => none

/-- 453-463: `D` after moving a node of `mySet`. -/
def updateD (ws : List ℚ) (mySet : List Nat) : List (Nat × Nat) → List ℚ → Option (List ℚ)
  | [], D => some D
  | (node2, e) :: nb, D =>
    match ws[e]?, D[node2]? with
    | some weight, some d =>
      match setAt D node2 (if node2 ∈ mySet then d - 2 * weight else d + 2 * weight) with
      | none => none
      | some D' => updateD ws mySet nb D'
    | _, _ => none

/-- 398-403: the move sequence. -/
structure Moves where
  D : List ℚ
  moved : List Bool
  seq : List Nat
  sumSeq : List ℚ
  bestMove : Nat

/-- 406-464: build the sequence of moves, at most `k` more. -/
def movesLoop (st : State) (iter : List Nat → List Nat) (set0 set1 : List Nat) : Nat → Moves → Option Moves
  | 0, m => some m
  | k + 1, m =>
    match (searchSet m.D m.moved (iter set0) none).bind (searchSet m.D m.moved (iter set1)) with
    | none => none
    | some none => some m
    | some (some (improve, node)) =>
      match setAt m.moved node true, m.sumSeq.getLast?, st.neighbours[node]? with
      | some moved, some back, some nb =>
        let sumSeq := m.sumSeq ++ [back + improve]
        match sumSeq[m.bestMove]? with
        | none => none
        | some best =>
          let bestMove := if best > back + improve then sumSeq.length - 1 else m.bestMove
          match updateD st.edgeWeight (if node ∈ set0 then set0 else set1) nb m.D with
          | none => none
          | some D => movesLoop st iter set0 set1 k ⟨D, moved, m.seq ++ [node], sumSeq, bestMove⟩
      | _, _, _ => none

/-- `insert` of a hash set. -/
def insertSet (s : List Nat) (v : Nat) : List Nat := if v ∈ s then s else s ++ [v]

/-- 471-481: perform the first moves of the sequence. -/
def perform : List Nat → List Nat × List Nat → List Nat × List Nat
  | [], s => s
  | node :: nodes, (set0, set1) =>
    if node ∈ set0 then perform nodes (set0.erase node, insertSet set1 node)
    else perform nodes (insertSet set0 node, set1.erase node)

/-- 353-484: the outer loop, at most `k` more iterations. -/
def outerLoop (st : State) (n : Nat) (iter : List Nat → List Nat) : Nat → ℚ → List Nat → List Nat → Option (ℚ × List Nat × List Nat)
  | 0, improvement, set0, set1 => some (improvement, set0, set1)
  | k + 1, improvement, set0, set1 =>
    match (fillD st set0 set1 (iter set0) (List.replicate n 0)).bind (fillD st set1 set0 (iter set1)) with
    | none => none
    | some D =>
      match movesLoop st iter set0 set1 1000 ⟨D, List.replicate n false, [], [0], 0⟩ with
      | none => none
      | some m =>
        match m.sumSeq[m.bestMove]? with
        | none => none
        | some best =>
          if best > -1 / 10 ^ 10 then some (improvement, set0, set1)
          else
            let s := perform (m.seq.take m.bestMove) (set0, set1)
            outerLoop st n iter k (improvement + best) s.1 s.2

/-- 344-486 `solveBinaryKL`: the improvement and the new sets. -/
def solveBinaryKL (st : State) (n : Nat) (iter : List Nat → List Nat) (set0 set1 : List Nat) : Option (ℚ × List Nat × List Nat) :=
  outerLoop st n iter 100 0 set0 set1

/-! ### inferKL -/

/-- 263-265: `numberOfPartitions`. -/
def numberOfPartitions (states : List Nat) : Nat := states.foldl (fun m s => if s + 1 > m then s + 1 else m) 0

/-- 267-269: `partitionSets[states_[i]].insert(i)`. -/
def fillSets : List Nat → Nat → List (List Nat) → Option (List (List Nat))
  | [], _, ps => some ps
  | s :: states, i, ps =>
    match ps[s]? with
    | none => none
    | some set =>
      match setAt ps s (insertSet set i) with
      | none => none
      | some ps' => fillSets states (i + 1) ps'

/-- `insert` of a `std::set`. -/
def insertSorted (x : Nat) : List Nat → List Nat
  | [] => [x]
  | y :: ys => if x < y then x :: y :: ys else if y < x then y :: insertSorted x ys else y :: ys

/-- 283-288: the partitions of the neighbours of a node. -/
def neighbourParts (states : List Nat) (part0 : Nat) : List (Nat × Nat) → List Nat → Option (List Nat)
  | [], acc => some acc
  | (node2, _) :: nb, acc =>
    match states[node2]? with
    | none => none
    | some s => neighbourParts states part0 nb (if s > part0 then insertSorted s acc else acc)

/-- 281-289: `neighbordSets`. -/
def neighbourSets (st : State) (part0 : Nat) : List Nat → List Nat → Option (List Nat)
  | [], acc => some acc
  | node :: nodes, acc =>
    match st.neighbours[node]? with
    | none => none
    | some nb =>
      match neighbourParts st.states part0 nb acc with
      | none => none
      | some acc' => neighbourSets st part0 nodes acc'

/-- 290-301: the loop over the neighbouring partitions. -/
def pairLoop (st : State) (n : Nat) (iter : List Nat → List Nat) (part0 : Nat) : List Nat → List (List Nat) → Bool → Option (List (List Nat) × Bool)
  | [], ps, change => some (ps, change)
  | part1 :: parts, ps, change =>
    match ps[part0]?, ps[part1]? with
    | some set0, some set1 =>
      if set0.length = 0 ∨ set1.length = 0 then pairLoop st n iter part0 parts ps change
      else
        match solveBinaryKL st n iter set0 set1 with
        | none => none
        | some (improvement, s0, s1) =>
          match (setAt ps part0 s0).bind (fun ps => setAt ps part1 s1) with
          | none => none
          | some ps' => pairLoop st n iter part0 parts ps' (if -1 / 10 ^ 8 > improvement then true else change)
    | _, _ => none

/-- 277-302: all pairs of partitions. -/
def allPairs (st : State) (n : Nat) (iter : List Nat → List Nat) : List Nat → List (List Nat) → Bool → Option (List (List Nat) × Bool)
  | [], ps, change => some (ps, change)
  | part0 :: parts, ps, change =>
    match ps[part0]? with
    | none => none
    | some set0 =>
      match neighbourSets st part0 (iter set0) [] with
      | none => none
      | some nbs =>
        match pairLoop st n iter part0 nbs ps change with
        | none => none
        | some (ps', change') => allPairs st n iter parts ps' change'

/-- 304-322: split the partitions, or mark them as empty. -/
def splitLoop (st : State) (n : Nat) (iter : List Nat → List Nat) : List Nat → List (List Nat) → List Nat → Bool → Option (List (List Nat) × List Nat × Bool)
  | [], ps, prune, change => some (ps, prune, change)
  | part0 :: parts, ps, prune, change =>
    match ps[part0]? with
    | none => none
    | some set0 =>
      if set0.length = 0 then splitLoop st n iter parts ps (prune ++ [part0]) change
      else if set0.length > 1 then
        match solveBinaryKL st n iter set0 [] with
        | none => none
        | some (_, s0, s1) =>
          match setAt ps part0 s0 with
          | none => none
          | some ps' =>
            if s1.length > 0 then splitLoop st n iter parts (ps' ++ [s1]) prune true
            else splitLoop st n iter parts ps' prune change
      else splitLoop st n iter parts ps prune change

/-- 325-328: erase the marked sets, the last one first; the argument is `pruneSets` reversed. -/
def pruneLoop : List Nat → List (List Nat) → Option (List (List Nat))
  | [], ps => some ps
  | part :: parts, ps => if part < ps.length then pruneLoop parts (ps.eraseIdx part) else none

/-- 332-334: `states_[*it] = part` for a set. -/
def labelSet (part : Nat) : List Nat → List Nat → Option (List Nat)
  | [], states => some states
  | v :: vs, states =>
    match setAt states v part with
    | none => none
    | some states' => labelSet part vs states'

/-- 331-335: the new labeling. -/
def labelAll : List (List Nat) → Nat → List Nat → Option (List Nat)
  | [], _, states => some states
  | s :: ps, part, states =>
    match labelSet part s states with
    | none => none
    | some states' => labelAll ps (part + 1) states'

/-- 274-335: one iteration of the main loop. -/
def round (n : Nat) (iter : List Nat → List Nat) (st : State) (ps : List (List Nat)) : Option (State × List (List Nat) × Bool) :=
  let parts := List.range ps.length
  match allPairs st n iter parts ps false with
  | none => none
  | some (ps1, change1) =>
    match splitLoop st n iter parts ps1 [] change1 with
    | none => none
    | some (ps2, prune, change2) =>
      match pruneLoop prune.reverse ps2 with
      | none => none
      | some ps3 =>
        match labelAll (ps3.map iter) 0 st.states with
        | none => none
        | some states => some ({ st with states := states }, ps3, change2)

/-- 272-339: the main loop; `visit` is the answer of the visitor in each iteration (true: continue). The first argument bounds the number of iterations; `none` also if it does
not suffice. -/
def mainLoop (n : Nat) (iter : List Nat → List Nat) : Nat → (Nat → Bool) → Nat → State → List (List Nat) → Option State
  | 0, _, _, _, _ => none
  | fuel + 1, visit, i, st, ps =>
    match round n iter st ps with
    | none => none
    | some (st', ps', change) =>
      if visit i && change then mainLoop n iter fuel visit (i + 1) st' ps' else some st'

/-- 243-252, 257-341 `infer`, `inferKL`. The bound on the number of iterations is the number of labelings with as many labels as variables, plus one. -/
def infer (n : Nat) (iter : List Nat → List Nat) (visit : Nat → Bool) (st : State) : Option State :=
  match fillSets st.states 0 (List.replicate (numberOfPartitions st.states) []) with
  | none => none
  | some ps => mainLoop n iter (n ^ n + 1) visit 0 st ps

/-- 489-505 `arg`: `none` if the return value is UNKNOWN. -/
def arg (n : Nat) (st : State) (N : Nat) : Option (List Nat) := if N ≠ 1 then none else some (st.states.take n)

end PartitionMove
end OpenGM
