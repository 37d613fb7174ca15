import Verif.Model.FactorGraph
/-
Model of the path queries of include/opengm/graphicalmodel/graphviews/factorgraph.hxx (class FactorGraph): isChain (431-522),
isGrid (526-708), shortestPath (948-1068) and twoHopConnected (1077-1097). Out-of-range reads and writes, lookups of absent
map keys and non-termination are `none`. The value `std::numeric_limits<size_t>::max()` used as "infinity" is `Option.none`.
-/
namespace OpenGM
namespace FG

/-! ### isChain -/

/-- factorgraph.hxx 454-463: the loop collecting the ends; `ends[0 .. detectedEnds)` is the list `found`. The inner `none` is
the `return false` at line 458. -/
def findEnds (g : FG) : List Nat → List Nat → Option (Option (List Nat))
  | [], found => some (some found)
  | i :: is, found =>
    match g.numberOfNthOrderFactorsOfVariable i 2 with
    | none => none
    | some c =>
      if c = 1 then
        if found.length > 1 then some none
        else findEnds g is (found ++ [i])
      else findEnds g is found

/-- factorgraph.hxx 479-484: the loop over the factors of `ends[0]`; `none` inside is the initial maximal value. -/
def chainStart (g : FG) (v : Nat) : List Nat → Option Nat → Option (Option Nat)
  | [], successor => some successor
  | f :: fs, successor =>
    match g.scopes[f]? with
    | none => none
    | some s =>
      if s.length = 2 then
        match g.secondVariableOfSecondOrderFactor v f with
        | none => none
        | some w => chainStart g v fs (some w)
      else chainStart g v fs successor

/-- factorgraph.hxx 502-509: `for j < 2`, with the `break`; the result is the new (predecessor, successor). -/
def chainStep (g : FG) (pred succ : Nat) (ids : List Nat) : List Nat → Option (Nat × Nat)
  | [] => some (pred, succ)
  | j :: js =>
    match ids[j]? with
    | none => none
    | some f =>
      match g.secondVariableOfSecondOrderFactor succ f with
      | none => none
      | some possible => if possible ≠ pred then some (succ, possible) else chainStep g pred succ ids js

/-- factorgraph.hxx 490-521: the traversal and the final test. Each round writes `chainIDs[count]` and increments `count`, so
after `n` rounds the next write is out of range: running out of fuel is undefined behaviour too. -/
def chainWalk (g : FG) (last n : Nat) : Nat → Nat → Nat → Nat → List Nat → Option (Bool × List Nat)
  | 0, _, succ, count, ids => if succ ≠ last then none else some (decide (count = n - 1), ids)
  | fuel + 1, pred, succ, count, ids =>
    if succ ≠ last then
      match g.nthOrderFactorsOfVariable succ 2 with
      | none => none
      | some (c, factorIds) =>
        if c > 2 then some (false, ids)
        else
          match setAt ids count succ with
          | none => none
          | some ids' =>
            match chainStep g pred succ factorIds [0, 1] with
            | none => none
            | some (pred', succ') => chainWalk g last n fuel pred' succ' (count + 1) ids'
    else some (decide (count = n - 1), ids)

/-- factorgraph.hxx 429-522 `isChain(chainIDs)`: the result and the final value of the argument. -/
def isChain (g : FG) (chainIDs : List Nat) : Option (Bool × List Nat) :=
  if g.numVars = 0 then some (false, chainIDs)
  else if g.maxFactorOrderLe 2 = false then some (false, chainIDs)
  else if g.numVars = 1 then some (true, [0])
  else
    match findEnds g (List.range g.numVars) [] with
    | none => none
    | some none => some (false, chainIDs)
    | some (some [e0, e1]) =>
      match setAt (List.replicate g.numVars 0) 0 e0 with
      | none => none
      | some ids0 =>
        match setAt ids0 (g.numVars - 1) e1 with
        | none => none
        | some ids =>
          match g.adj[e0]? with
          | none => none
          | some fs =>
            match chainStart g e0 fs none with
            | some (some successor) => chainWalk g e1 g.numVars g.numVars e0 successor 1 ids
            | _ => none
    | some (some _) => some (false, chainIDs)

/-! ### shortestPath -/

/-- `a < b` on distances, where `none` is infinity. -/
def distLess : Option Nat → Option Nat → Bool
  | some a, some b => decide (a < b)
  | some _, none => true
  | none, _ => false

/-- factorgraph.hxx 966-971, 1021-1026: the scan for the first entry of `Q` with the smallest distance. The entries of `Q` are
distinct, so that the iterator is represented by the entry. -/
def minQ (dist : List (Option Nat)) : Nat → List Nat → Option Nat
  | cur, [] => some cur
  | cur, x :: xs =>
    match dist[x]?, dist[cur]? with
    | some dx, some dc => minQ dist (if distLess dx dc then x else cur) xs
    | _, _ => none

/-- factorgraph.hxx 985-991, 1045-1051: the relaxation of the neighbours `xs` of `cur` which are still in `Q`. -/
def relax (Q : List Nat) (cur : Nat) :
    List Nat → List (Option Nat) → List (Option Nat) → Option (List (Option Nat) × List (Option Nat))
  | [], dist, prev => some (dist, prev)
  | x :: xs, dist, prev =>
    if Q.contains x then
      match dist[cur]?, dist[x]? with
      | some dc, some dx =>
        if distLess (dc.map (· + 1)) dx then
          match setAt dist x (dc.map (· + 1)), setAt prev x (some cur) with
          | some dist', some prev' => relax Q cur xs dist' prev'
          | _, _ => none
        else relax Q cur xs dist prev
      | _, _ => none
    else relax Q cur xs dist prev

/-- factorgraph.hxx 965-994, 1020-1055: the main loop, over (local) identifiers; `nbrs c` are the identifiers visited for `c`.
The inner `none` is `return false`, otherwise `previous` at the exit of the loop. `Q` loses one entry per round, so the fuel is
its length. -/
def dijkstra (nbrs : Nat → Option (List Nat)) (t : Nat) :
    Nat → List Nat → List (Option Nat) → List (Option Nat) → Option (Option (List (Option Nat)))
  | 0, _, _, prev => some (some prev)
  | _ + 1, [], _, prev => some (some prev)
  | fuel + 1, q :: qs, dist, prev =>
    match minQ dist q (q :: qs) with
    | none => none
    | some cur =>
      match dist[cur]? with
      | none => none
      | some none => some none
      | some (some _) =>
        if cur = t then some (some prev)
        else
          match nbrs cur with
          | none => none
          | some l =>
            match relax ((q :: qs).erase cur) cur l dist prev with
            | none => none
            | some (dist', prev') => dijkstra nbrs t fuel ((q :: qs).erase cur) dist' prev'

/-- factorgraph.hxx 997-1001, 1058-1063: following `previous` from `u`; every round adds one entry to the front of the path. More
rounds than there are entries of `previous` means that the loop does not terminate. -/
def backtrack (actual : Nat → Option Nat) (prev : List (Option Nat)) : Nat → Nat → List Nat → Option (List Nat)
  | fuel, u, path =>
    match prev[u]? with
    | none => none
    | some none => some path
    | some (some w) =>
      match fuel with
      | 0 => none
      | fuel + 1 =>
        match actual u with
        | none => none
        | some x => backtrack actual prev fuel w (x :: path)

/-- The variables visited by the loops of lines 983-984, 1040-1041 for the factors `fs`. -/
def variablesOfFactors (g : FG) : List Nat → Option (List Nat)
  | [] => some []
  | f :: fs =>
    match g.scopes[f]?, variablesOfFactors g fs with
    | some s, some rest => some (s ++ rest)
    | _, _ => none

/-- The variables visited for variable `v`. -/
def visited (g : FG) (v : Nat) : Option (List Nat) :=
  match g.adj[v]? with
  | none => none
  | some fs => variablesOfFactors g fs

/-- factorgraph.hxx 1032, 1040-1044: the local identifiers of the allowed variables visited for the local identifier `c`. -/
def localVisited (g : FG) (allowed : List Nat) (c : Nat) : Option (List Nat) :=
  match allowed[c]? with
  | none => none
  | some v => (g.visited v).map (fun l => l.filterMap (fun x => allowed.idxOf? x))

/-- factorgraph.hxx 945-1068 `shortestPath(s, t, path, allowedVariables)`: the result and the final value of `path`, which is
not cleared. `local2actualIDs` is the list of allowed variables itself; `actual2localIDs`, where `insert` keeps the first entry
of a key, is the position of the first occurrence. -/
def shortestPath (g : FG) (s t : Nat) (path allowed : List Nat) : Option (Bool × List Nat) :=
  if allowed.length = 0 ∨ allowed.length = g.numVars then
    match setAt (List.replicate g.numVars none) s (some 0) with
    | none => none
    | some dist =>
      match dijkstra g.visited t g.numVars (List.range g.numVars) dist (List.replicate g.numVars none) with
      | none => none
      | some none => some (false, path)
      | some (some prev) =>
        match backtrack some prev g.numVars t path with
        | none => none
        | some out => some (true, s :: out)
  else
    match allowed.idxOf? s with
    | none => none
    | some sl =>
      match setAt (List.replicate allowed.length none) sl (some 0), allowed.idxOf? t with
      | some dist, some tl =>
        match dijkstra (g.localVisited allowed) tl allowed.length (List.range allowed.length) dist
            (List.replicate allowed.length none) with
        | none => none
        | some none => some (false, path)
        | some (some prev) =>
          match backtrack (fun c => allowed[c]?) prev allowed.length tl path with
          | none => none
          | some out => some (true, s :: out)
      | _, _ => none

/-! ### twoHopConnected -/

/-- factorgraph.hxx 1083-1089: the inner loop over the variables of the factors of `variable1`. The condition of line 1084 is
kept as written. -/
def hops (g : FG) (v w : Nat) : List Nat → List Nat → Option (List Nat)
  | [], out => some out
  | x :: xs, out =>
    if x ≠ v ∨ x ≠ w then
      match g.variableVariableConnection x w with
      | none => none
      | some c => hops g v w xs (if c then out ++ [x] else out)
    else hops g v w xs out

/-- factorgraph.hxx 1074-1097 `twoHopConnected(variable1, variable2, oneHopVariables)`: result and list. -/
def twoHopConnected (g : FG) (v w : Nat) : Option (Bool × List Nat) :=
  if v ≠ w then
    match g.visited v with
    | none => none
    | some l => (hops g v w l []).map (fun out => (decide (out.length ≠ 0), out))
  else some (false, [])

/-! ### isGrid -/

/-- factorgraph.hxx 565-582: corners and outer hull; the inner `none` is `return false`. `cornerIDs` has four entries: writing a fifth one is
undefined (`none`). -/
def findCorners (g : FG) : List Nat → List Nat → List Nat → Option (Option (List Nat × List Nat))
  | [], corners, hull => some (some (corners, hull))
  | i :: is, corners, hull =>
    match g.numberOfNthOrderFactorsOfVariable i 2 with
    | none => none
    | some c =>
      if c = 2 then
        if corners.length > 3 then some none
        else if corners.length < 4 then findCorners g is (corners ++ [i]) (hull ++ [i])
        else none
      else if c = 3 then findCorners g is corners (hull ++ [i])
      else if c > 4 then some none
      else findCorners g is corners hull

/-- factorgraph.hxx 605-610: the loop over `i = 1, 2, 3`, with the subscript of line 607 as written. -/
def diagonal (paths : List (List Nat)) : List Nat → Nat → Option Nat
  | [], d => some d
  | i :: is, d =>
    match paths[i - 1]?, paths[d]? with
    | some a, some b => diagonal paths is (if a.length > b.length then i else d)
    | _, _ => none

/-- `gridIDs(i, j) = x` on a matrix stored as rows. -/
def setCell (m : List (List Nat)) (i j x : Nat) : Option (List (List Nat)) :=
  match m[i]? with
  | none => none
  | some row => (setAt row j x).map (fun row' => m.set i row')

/-- `gridIDs(i, j)`. -/
def cell (m : List (List Nat)) (i j : Nat) : Option Nat := (m[i]?).bind (fun row => row[j]?)

/-- factorgraph.hxx 654-657, 680-683: writing a path into column `j`, starting in row `i`. -/
def fillColumn (j : Nat) : List Nat → Nat → List (List Nat) → Option (List (List Nat))
  | [], _, m => some m
  | x :: xs, i, m => (setCell m i j x).bind (fun m' => fillColumn j xs (i + 1) m')

/-- factorgraph.hxx 660-663, 674-677: writing a path into row `i`, starting in column `j`. -/
def fillRow (i : Nat) : List Nat → Nat → List (List Nat) → Option (List (List Nat))
  | [], _, m => some m
  | x :: xs, j, m => (setCell m i j x).bind (fun m' => fillRow i xs (j + 1) m')

/-- factorgraph.hxx 690-703: one inner cell; the inner `none` is `return false`. -/
def fillInner (g : FG) (i j : Nat) (m : List (List Nat)) : Option (Option (List (List Nat))) :=
  match cell m (i - 1) j, cell m i (j - 1), cell m (i - 1) (j - 1) with
  | some a, some b, some c =>
    match g.twoHopConnected a b with
    | none => none
    | some (true, x0 :: x1 :: _) => (setCell m i j (if x0 ≠ c then x0 else x1)).map some
    | some _ => some none
  | _, _, _ => none

/-- factorgraph.hxx 688-705: the loops over the inner cells. -/
def fillInners (g : FG) : List (Nat × Nat) → List (List Nat) → Option (Option (List (List Nat)))
  | [], m => some (some m)
  | p :: ps, m =>
    match fillInner g p.1 p.2 m with
    | none => none
    | some none => some none
    | some (some m') => fillInners g ps m'

/-- The pairs `(i, j)` of the loops of lines 688-689: `1 <= i < d0 - 1`, `1 <= j < d1 - 1`. -/
def innerCells (d0 d1 : Nat) : List (Nat × Nat) :=
  ((List.range (d0 - 1)).drop 1).flatMap (fun i => ((List.range (d1 - 1)).drop 1).map (fun j => (i, j)))

/-- factorgraph.hxx 645-707: storage, hull and inner cells, from the two paths `p0, p1` of the first corner to its adjacent
corners and the two paths `q0, q1` of these to the diagonal corner; `none` inside is `return false`. Entries not yet written are
0. -/
def fillGrid (g : FG) (p0 p1 q0 q1 : List Nat) : Option (Option (List (List Nat))) :=
  match fillColumn 0 p0 0 (List.replicate p0.length (List.replicate p1.length 0)) with
  | none => none
  | some m1 =>
    match fillRow 0 p1 0 m1 with
    | none => none
    | some m2 =>
      match fillRow (p0.length - 1) q0 0 m2 with
      | none => none
      | some m3 =>
        match fillColumn (p1.length - 1) q1 0 m3 with
        | none => none
        | some m4 => fillInners g (innerCells p0.length p1.length) m4

/-- factorgraph.hxx 612-642: the paths of the corners `a, b` (those of 1, 2, 3 other than the diagonal corner `d`, with the
paths `pa, pb` of the first corner to them) to `d`, the comparison of the dimensions and the filling. -/
def gridFrom (g : FG) (hull : List Nat) (a b d : Nat) (pa pb : List Nat) : Option (Option (List (List Nat))) :=
  match g.shortestPath a d [] hull with
  | none => none
  | some (false, _) => some none
  | some (true, qa) =>
    match g.shortestPath b d [] hull with
    | none => none
    | some (false, _) => some none
    | some (true, qb) =>
      if pa.length ≠ qb.length then some none
      else if pb.length ≠ qa.length then some none
      else fillGrid g pa pb qa qb

/-- factorgraph.hxx 590-622: the paths of the first corner to the others and the choice of the diagonal corner. -/
def gridOfCorners (g : FG) (hull : List Nat) (c0 c1 c2 c3 : Nat) : Option (Option (List (List Nat))) :=
  match g.shortestPath c0 c1 [] hull with
  | none => none
  | some (false, _) => some none
  | some (true, p1) =>
    match g.shortestPath c0 c2 [] hull with
    | none => none
    | some (false, _) => some none
    | some (true, p2) =>
      match g.shortestPath c0 c3 [] hull with
      | none => none
      | some (false, _) => some none
      | some (true, p3) =>
        match diagonal [p1, p2, p3] [1, 2, 3] 1 with
        | none => none
        | some d =>
          if d = 1 then gridFrom g hull c2 c3 c1 p2 p3
          else if d = 2 then gridFrom g hull c1 c3 c2 p1 p3
          else gridFrom g hull c1 c2 c3 p1 p2

/-- factorgraph.hxx 527-708 `isGrid(gridIDs)`: the matrix when the result is true, the inner `none` when it is false (the matrix
left behind in that case is not modelled). -/
def isGrid (g : FG) : Option (Option (List (List Nat))) :=
  if g.numVars = 0 then some none
  else if g.maxFactorOrderLe 2 = false then some none
  else if g.numVars = 1 then some (some [[0]])
  else
    match g.isChain [] with
    | none => none
    | some (true, chain) => some (some [chain])
    | some (false, _) =>
      match findCorners g (List.range g.numVars) [] [] with
      | none => none
      | some none => some none
      | some (some ([c0, c1, c2, c3], hull)) => gridOfCorners g hull c0 c1 c2 c3
      | some (some _) => some none

end FG
end OpenGM
