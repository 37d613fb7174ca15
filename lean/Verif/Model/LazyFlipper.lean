import Verif.Model.Movemaker
import Verif.Model.ICM
/-
Model of include/opengm/inference/lazyflipper.hxx: the classes Tagging, Adjacency, Forest and LazyFlipper.

`none` is undefined behaviour (an index that is out of range) or a loop that does not end: the `while` loops carry a fuel argument. The constant NONODE is `none`
of the type `Option Nat`. A visitor is any sequence of answers: `visit k` says whether the `k`-th call asks to stop (the calls `begin` and `end` have no effect).
-/
namespace OpenGM
namespace LazyFlip
open Spec (InvOperation)
variable {V : Type}

/-! ### class Tagging -/

/-- lazyflipper.hxx 42-43: data members of Tagging. -/
structure Tagging (α : Type) where
  tags : List α
  indices : List Nat

namespace Tagging
variable {α : Type}

/-- lazyflipper.hxx 225-231: constructor; `d` is the value `T()`. -/
def make (d : α) (size : Nat) : Tagging α := ⟨List.replicate size d, []⟩

/-- lazyflipper.hxx 233-239 -/
def append (d : α) (t : Tagging α) (number : Nat) : Tagging α := { t with tags := t.tags ++ List.replicate number d }

/-- lazyflipper.hxx 242-250: `tag(index)` -/
def get (t : Tagging α) (index : Nat) : Option α := t.tags[index]?

/-- lazyflipper.hxx 253-266: `tag(index, tag)` -/
def set [DecidableEq α] (d : α) (t : Tagging α) (index : Nat) (tag : α) : Option (Tagging α) :=
  match t.tags[index]? with
  | none => none
  | some old => some ⟨t.tags.set index tag, if old = d then t.indices ++ [index] else t.indices⟩

/-- lazyflipper.hxx 275-277: the loop of `untag`. -/
def untagLoop (d : α) : List Nat → List α → Option (List α)
  | [], tags => some tags
  | i :: is, tags =>
    match setAt tags i d with
    | none => none
    | some tags' => untagLoop d is tags'

/-- lazyflipper.hxx 271-279 -/
def untag (d : α) (t : Tagging α) : Option (Tagging α) :=
  match untagLoop d t.indices t.tags with
  | none => none
  | some tags => some ⟨tags, []⟩

end Tagging

/-! ### class Adjacency -/

/-- lazyflipper.hxx 325-334: `connect`; a `std::set<size_t>` is a sorted list. -/
def connect (adj : List (List Nat)) (j k : Nat) : Option (List (List Nat)) :=
  match adj[j]? with
  | none => none
  | some s =>
    let adj1 := adj.set j (RandomAccessSet.insert natLess s k).1
    match adj1[k]? with
    | none => none
    | some s' => some (adj1.set k (RandomAccessSet.insert natLess s' j).1)

/-- lazyflipper.hxx 336-358 -/
def connected (adj : List (List Nat)) (j k : Nat) : Option Bool :=
  match adj[j]?, adj[k]? with
  | some nj, some nk => if nj.length < nk.length then some (decide (k ∈ nj)) else some (decide (j ∈ nk))
  | _, _ => none

/-- lazyflipper.hxx 666-668: connect the variable `v` of a factor with the variables after it. -/
def connectAll (v : Nat) : List Nat → List (List Nat) → Option (List (List Nat))
  | [], adj => some adj
  | w :: ws, adj =>
    match connect adj v w with
    | none => none
    | some adj' => connectAll v ws adj'

/-- lazyflipper.hxx 665-669: connect all pairs of variables of a factor. -/
def connectPairs : List Nat → List (List Nat) → Option (List (List Nat))
  | [], adj => some adj
  | v :: vs, adj =>
    match connectAll v vs adj with
    | none => none
    | some adj' => connectPairs vs adj'

/-- lazyflipper.hxx 661-670: initialize `variableAdjacency_`. -/
def buildAdjacency (gm : GM V) : List FactorRec → List (List Nat) → Option (List (List Nat))
  | [], adj => some adj
  | f :: fs, adj =>
    match connectPairs (gm.scope f) adj with
    | none => none
    | some adj' => buildAdjacency gm fs adj'

/-! ### class Forest -/

/-- lazyflipper.hxx 92-104: struct Node. -/
structure Node where
  value : Nat
  parent : Option Nat
  children : List Nat
  level : Nat
  succ : Option Nat

/-- lazyflipper.hxx 106-107: data members of Forest. -/
structure Forest where
  nodes : List Node
  anchors : List Nat

namespace Forest

/-- lazyflipper.hxx 394-398 -/
def empty : Forest := ⟨[], []⟩

/-- lazyflipper.hxx 485-511 `push_back`: the index of the new node. -/
def pushBack (f : Forest) (value : Nat) (parent : Option Nat) : Option (Nat × Forest) :=
  let index := f.nodes.length
  match parent with
  | none => some (index, ⟨f.nodes ++ [⟨value, none, [], 0, none⟩], if f.anchors.length ≤ 0 then f.anchors ++ [index] else f.anchors⟩)
  | some p =>
    match f.nodes[p]? with
    | none => none
    | some nd =>
      some (index, ⟨f.nodes.set p { nd with children := nd.children ++ [index] } ++ [⟨value, some p, [], nd.level + 1, none⟩],
        if f.anchors.length ≤ nd.level + 1 then f.anchors ++ [index] else f.anchors⟩)

/-- lazyflipper.hxx 596-605 `setLevelOrderSuccessor` -/
def setSuccessor (f : Forest) (node succ : Nat) : Option Forest :=
  match f.nodes[node]? with
  | none => none
  | some nd => some { f with nodes := f.nodes.set node { nd with succ := some succ } }

/-- The values on the path from a node to the root, by a loop `while(q != NONODE)`: lazyflipper.hxx 1036-1043, 1156-1163, 1223-1230. -/
def pathUp (f : Forest) : Nat → Option Nat → Option (List Nat)
  | _, none => some []
  | 0, some _ => none
  | fuel + 1, some q =>
    match f.nodes[q]? with
    | none => none
    | some nd =>
      match pathUp f fuel nd.parent with
      | none => none
      | some vs => some (nd.value :: vs)

/-- The values of a node and its predecessors, by a loop with a fixed number of steps: lazyflipper.hxx 1009-1018, 1243-1249, 1265-1271, 1285-1289. -/
def pathFor (f : Forest) : Nat → Option Nat → Option (List Nat)
  | 0, _ => some []
  | _ + 1, none => none
  | k + 1, some q =>
    match f.nodes[q]? with
    | none => none
    | some nd =>
      match pathFor f k nd.parent with
      | none => none
      | some vs => some (nd.value :: vs)

end Forest

/-! ### growing the forest -/

/-- lazyflipper.hxx 1060-1072: could the variable `c` have been added earlier on the path, before a greater one? -/
def cheaper (adj : List (List Nat)) (c : Nat) : List Nat → Option Bool
  | [] => some false
  | [_] => some false
  | a :: b :: rest =>
    match connected adj a c with
    | none => none
    | some true => if (b :: rest).any (fun w => decide (c < w)) then some true else cheaper adj c (b :: rest)
    | some false => cheaper adj c (b :: rest)

/-- lazyflipper.hxx 1045-1081: the first candidate that can be appended. -/
def selectCandidate (adj : List (List Nat)) (onPath : List Nat) (minVI maxVI : Nat) : List Nat → Option (Option Nat)
  | [] => some none
  | c :: cs =>
    if c > minVI ∧ c ∉ onPath then
      if c > maxVI then some (some c)
      else
        match cheaper adj c onPath with
        | none => none
        | some false => some (some c)
        | some true => selectCandidate adj onPath minVI maxVI cs
    else selectCandidate adj onPath minVI maxVI cs

/-- lazyflipper.hxx 1033-1044: the neighbours of the variables on the path. -/
def candidates (adj : List (List Nat)) : List Nat → List Nat → Option (List Nat)
  | [], set => some set
  | v :: vs, set =>
    match adj[v]? with
    | none => none
    | some s => candidates adj vs (Movemaker.setUnion set s)

/-- lazyflipper.hxx 1019-1032: the variable to be appended must be greater than this one: the value of the last child, or the first variable of the path. -/
def appendBound (f : Forest) (nd : Node) (v0 : Nat) : Option Nat :=
  match nd.children.getLast? with
  | none => some v0
  | some c => (f.nodes[c]?).map (fun nc => nc.value)

/-- lazyflipper.hxx 1000-1082 `appendVariableToPath`; inner `none`: no variable can be appended. -/
def appendVariable (adj : List (List Nat)) (f : Forest) (p : Nat) : Option (Option (Nat × Forest)) :=
  match f.nodes[p]? with
  | none => none
  | some nd =>
    match f.pathFor (nd.level + 1) (some p), f.pathUp f.nodes.length (some p) with
    | some up, some up' =>
      match up.reverse with
      | [] => none
      | v0 :: rest =>
        let maxVI := rest.foldl max v0
        match appendBound f nd v0, candidates adj up' [] with
        | some minVI, some cs =>
          match selectCandidate adj (v0 :: rest) minVI maxVI cs with
          | none => none
          | some none => some none
          | some (some c) =>
            match f.pushBack c (some p) with
            | none => none
            | some r => some (some r)
        | _, _ => none
    | _, _ => none

/-- lazyflipper.hxx 1101-1111, 1135-1144: append a variable to the first possible node, from the node `p` on in the order of its level. -/
def appendLoop (adj : List (List Nat)) (f : Forest) : Nat → Option Nat → Option (Option (Nat × Forest))
  | _, none => some none
  | 0, some _ => none
  | fuel + 1, some p =>
    match appendVariable adj f p with
    | none => none
    | some (some r) => some (some r)
    | some none =>
      match f.nodes[p]? with
      | none => none
      | some nd => appendLoop adj f fuel nd.succ

/-- lazyflipper.hxx 1084-1114 `generateFirstPathOfLength`, for a model with `n` variables. -/
def firstPath (n : Nat) (adj : List (List Nat)) (fuel : Nat) (f : Forest) (length : Nat) : Option (Option (Nat × Forest)) :=
  if length > n then some none
  else if length = 1 then
    match f.pushBack 0 none with
    | none => none
    | some r => some (some r)
  else
    match f.anchors[length - 2]? with
    | none => none
    | some p => appendLoop adj f fuel (some p)

/-- lazyflipper.hxx 1116-1146 `generateNextPathOfSameLength` -/
def nextPath (n : Nat) (adj : List (List Nat)) (fuel : Nat) (f : Forest) (pred : Nat) : Option (Option (Nat × Forest)) :=
  match f.nodes[pred]? with
  | none => none
  | some nd =>
    let next :=
      if nd.level = 0 then
        if nd.value + 1 < n then
          match f.pushBack (nd.value + 1) none with
          | none => none
          | some r => some (some r)
        else some none
      else appendLoop adj f fuel nd.parent
    match next with
    | none => none
    | some none => some none
    | some (some (q, f')) =>
      match f'.setSuccessor pred q with
      | none => none
      | some f'' => some (some (q, f''))

/-! ### activation of variables -/

/-- Tag all listed variables. -/
def tagAll : List Nat → Tagging Bool → Option (Tagging Bool)
  | [], t => some t
  | v :: vs, t =>
    match t.set false v true with
    | none => none
    | some t' => tagAll vs t'

/-- lazyflipper.hxx 1156-1163: tag each variable of the path and its neighbours. -/
def activateLoop (adj : List (List Nat)) : List Nat → Tagging Bool → Option (Tagging Bool)
  | [], t => some t
  | v :: vs, t =>
    match t.set false v true, adj[v]? with
    | some t1, some s =>
      match tagAll s t1 with
      | none => none
      | some t2 => activateLoop adj vs t2
    | _, _ => none

/-- lazyflipper.hxx 1148-1164 `activateInfluencedVariables` -/
def activate (adj : List (List Nat)) (f : Forest) (p : Nat) (t : Tagging Bool) : Option (Tagging Bool) :=
  match f.pathUp f.nodes.length (some p) with
  | none => none
  | some vs => activateLoop adj vs t

/-- lazyflipper.hxx 1187-1194: the first active root. -/
def firstActiveLoop (f : Forest) (t : Tagging Bool) : Nat → Option Nat → Option (Option Nat)
  | _, none => some none
  | 0, some _ => none
  | fuel + 1, some p =>
    match f.nodes[p]? with
    | none => none
    | some nd =>
      match t.get nd.value with
      | none => none
      | some true => some (some p)
      | some false => firstActiveLoop f t fuel nd.succ

/-- lazyflipper.hxx 1176-1196 `firstActivePath` -/
def firstActive (f : Forest) (t : Tagging Bool) (fuel : Nat) : Option (Option Nat) :=
  match f.anchors[0]? with
  | none => some none
  | some p => firstActiveLoop f t fuel (some p)

/-- lazyflipper.hxx 1223-1230: is a variable of the path active? -/
def anyActive (t : Tagging Bool) : List Nat → Option Bool
  | [] => some false
  | v :: vs =>
    match t.get v with
    | none => none
    | some true => some true
    | some false => anyActive t vs

/-- lazyflipper.hxx 1201-1232 `nextActivePath` -/
def nextActive (f : Forest) (t : Tagging Bool) : Nat → Nat → Option (Option Nat)
  | 0, _ => none
  | fuel + 1, pred =>
    match f.nodes[pred]? with
    | none => none
    | some nd =>
      let next :=
        match nd.succ with
        | some s => some (some s)
        | none =>
          if nd.level + 1 < f.anchors.length then
            match f.anchors[nd.level + 1]? with
            | none => none
            | some a => some (some a)
          else some none
      match next with
      | none => none
      | some none => some none
      | some (some q) =>
        match f.pathUp f.nodes.length (some q) with
        | none => none
        | some vs =>
          match anyActive t vs with
          | none => none
          | some true => some (some q)
          | some false => nextActive f t fuel q

/-! ### class LazyFlipper -/

/-- lazyflipper.hxx 213-219: data members of LazyFlipper; `act0` and `act1` are `activation_`, `multi` is `useMultilabelInference_` (none: maybe). -/
structure LF (V : Type) where
  adj : List (List Nat)
  m : Movemaker V
  act0 : Tagging Bool
  act1 : Tagging Bool
  forest : Forest
  maxSize : Nat
  multi : Option Bool

/-- `activation_[i]` -/
def LF.act (lf : LF V) (i : Bool) : Tagging Bool := if i then lf.act1 else lf.act0

/-- `activation_[i] = t` -/
def LF.setAct (lf : LF V) (i : Bool) (t : Tagging Bool) : LF V := if i then { lf with act1 := t } else { lf with act0 := t }

/-- What `infer` is compiled and called with: the operation, whether it is Multiplier, the comparison of the accumulation, the test of the movemaker (C17) and the
answers of the visitor. -/
structure Request (V : Type) where
  o : InvOperation V
  multiplier : Bool
  bop : V → V → Bool
  reevaluate : V → Bool
  visit : Nat → Bool

/-- A request together with the fuel of all loops. -/
structure Call (V : Type) extends Request V where
  fuel : Nat

/-- lazyflipper.hxx 641-673: constructor, with the parameters `maxSubgraphSize_`, `startingPoint_` and `inferMultilabel_`. -/
def construct (o : InvOperation V) (gm : GM V) (maxSize : Nat) (start : List Nat) (multi : Option Bool) : Outcome Unit (LF V) :=
  match Movemaker.ofModel o gm with
  | none => .ub
  | some m =>
    if gm.numberOfVariables = 0 then .throw ()
    else if maxSize < 1 then .throw ()
    else
      match buildAdjacency gm gm.factors (List.replicate gm.numberOfVariables []) with
      | none => .ub
      | some adj =>
        let t := (Tagging.make false 0).append false gm.numberOfVariables
        if start.length = gm.numberOfVariables then
          match m.initializeFrom o start with
          | none => .ub
          | some m' => .ok ⟨adj, m', t, t, .empty, maxSize, multi⟩ ()
        else .ok ⟨adj, m, t, t, .empty, maxSize, multi⟩ ()

/-- lazyflipper.hxx 715-721 -/
def setStartingPoint (o : InvOperation V) (lf : LF V) (start : List Nat) : Option (LF V) :=
  match lf.m.initializeFrom o start with
  | none => none
  | some m' => some { lf with m := m' }

/-- lazyflipper.hxx 744-756 -/
def setMaxSubgraphSize (lf : LF V) (maxSize : Nat) : Outcome (LF V) Unit :=
  if maxSize < 1 then .throw lf else .ok () { lf with maxSize := maxSize }

/-- lazyflipper.hxx 675-679: `reset` does nothing. -/
def reset (lf : LF V) : LF V := lf

/-- lazyflipper.hxx 1247, 1269: `1 - state` for each variable; a state greater than 1 gives a label that is out of range. -/
def flipped (state : List Nat) : List Nat → Option (List Nat)
  | [] => some []
  | v :: vs =>
    match state[v]? with
    | none => none
    | some s =>
      if s ≤ 1 then
        match flipped state vs with
        | none => none
        | some ls => some ((1 - s) :: ls)
      else none

/-- lazyflipper.hxx 824-825, 844-845, 1234-1275: `energyAfterFlip`, and `flip` if it is better. -/
def tryBinary (c : Call V) (lf : LF V) (p : Nat) : Option (Bool × LF V) :=
  match lf.forest.nodes[p]? with
  | none => none
  | some nd =>
    match lf.forest.pathFor (nd.level + 1) (some p) with
    | none => none
    | some vars =>
      match flipped lf.m.state vars with
      | none => none
      | some labels =>
        match lf.m.valueAfterMove c.o c.multiplier vars labels with
        | none => none
        | some (e, m1) =>
          if c.bop e m1.value then
            match flipped m1.state vars with
            | none => none
            | some labels' =>
              match m1.move c.o c.multiplier vars labels' with
              | none => none
              | some (_, m2) => some (true, { lf with m := m2 })
          else some (false, { lf with m := m1 })

/-- lazyflipper.hxx 1277-1299 `flipMultiLabel` -/
def tryMulti (c : Call V) (lf : LF V) (p : Nat) : Option (Bool × LF V) :=
  match lf.forest.nodes[p]? with
  | none => none
  | some nd =>
    match lf.forest.pathFor (nd.level + 1) (some p) with
    | none => none
    | some vars =>
      match lf.m.moveOptimallyChanging c.o c.bop c.reevaluate vars with
      | none => none
      | some (_, m') => some (c.bop m'.value lf.m.value, { lf with m := m' })

/-- The trial of one path in `inferBinaryLabel` and `inferMultiLabel`. -/
def tryPath (multi : Bool) (c : Call V) (lf : LF V) (p : Nat) : Option (Bool × LF V) := if multi then tryMulti c lf p else tryBinary c lf p

/-- lazyflipper.hxx 824-832, 844-852, 911-919, 931-939: try a path and activate the influenced variables in the list `i`. The results: did the visitor stop the algorithm, the new
object and the number of calls of the visitor. -/
def visitPath (multi : Bool) (c : Call V) (i : Bool) (lf : LF V) (calls : Nat) (p : Nat) : Option (Bool × LF V × Nat) :=
  match tryPath multi c lf p with
  | none => none
  | some (false, lf') => some (false, lf', calls)
  | some (true, lf') =>
    match activate lf'.adj lf'.forest p (lf'.act i) with
    | none => none
    | some t => some (c.visit calls, lf'.setAct i t, calls + 1)

/-- lazyflipper.hxx 823-834, 910-921: all paths of one length. -/
def generationLoop (multi : Bool) (c : Call V) : Nat → Option Nat → LF V → Nat → Option (Bool × LF V × Nat)
  | _, none, lf, calls => some (false, lf, calls)
  | 0, some _, _, _ => none
  | fuel + 1, some p, lf, calls =>
    match visitPath multi c false lf calls p with
    | none => none
    | some (true, r) => some (true, r)
    | some (false, lf', calls') =>
      match nextPath lf'.m.gm.numberOfVariables lf'.adj c.fuel lf'.forest p with
      | none => none
      | some none => some (false, lf', calls')
      | some (some (q, f)) => generationLoop multi c fuel (some q) { lf' with forest := f } calls'

/-- lazyflipper.hxx 843-854, 930-941: all active paths. -/
def passLoop (multi : Bool) (c : Call V) (cur : Bool) : Nat → Option Nat → LF V → Nat → Option (Bool × LF V × Nat)
  | _, none, lf, calls => some (false, lf, calls)
  | 0, some _, _, _ => none
  | fuel + 1, some p, lf, calls =>
    match visitPath multi c (!cur) lf calls p with
    | none => none
    | some (true, r) => some (true, r)
    | some (false, lf', calls') =>
      match nextActive lf'.forest (lf'.act cur) c.fuel p with
      | none => none
      | some q => passLoop multi c cur fuel q lf' calls'

/-- lazyflipper.hxx 835-859, 922-946: repeat while there are active variables; `cur` is `currentActivationList`. -/
def activeLoop (multi : Bool) (c : Call V) : Nat → Bool → LF V → Nat → Option (Bool × LF V × Nat)
  | 0, _, _, _ => none
  | fuel + 1, cur, lf, calls =>
    match firstActive lf.forest (lf.act cur) c.fuel with
    | none => none
    | some none => some (false, lf, calls)
    | some (some p) =>
      match passLoop multi c cur c.fuel (some p) lf calls with
      | none => none
      | some (stop, lf', calls') =>
        match (lf'.act cur).untag false with
        | none => none
        | some t => if stop then some (true, lf'.setAct cur t, calls') else activeLoop multi c fuel (!cur) (lf'.setAct cur t) calls'

/-- lazyflipper.hxx 812-867, 899-954: the lengths from `length` on. -/
def lengthLoop (multi : Bool) (c : Call V) : Nat → Nat → LF V → Nat → Option (LF V)
  | 0, _, _, _ => none
  | fuel + 1, length, lf, calls =>
    if c.visit calls then some lf
    else
      match firstPath lf.m.gm.numberOfVariables lf.adj c.fuel lf.forest length with
      | none => none
      | some none => some lf
      | some (some (p, f)) =>
        match generationLoop multi c c.fuel (some p) { lf with forest := f } (calls + 1) with
        | none => none
        | some (true, lf1, _) => some lf1
        | some (false, lf1, calls1) =>
          match activeLoop multi c c.fuel false lf1 calls1 with
          | none => none
          | some (true, lf2, _) => some lf2
          | some (false, lf2, calls2) => if length = lf2.maxSize then some lf2 else lengthLoop multi c fuel (length + 1) lf2 calls2

/-- lazyflipper.hxx 762-788: which of the two algorithms is used. -/
def useMulti (lf : LF V) : Bool :=
  match lf.multi with
  | some b => b
  | none => lf.m.gm.numLabels.any (fun n => decide (n ≠ 2))

/-- A bound for the number of nodes of the forest after the paths of one more length are generated. -/
def grown (n s : Nat) : Nat := (s + 1) * (n + 1)

def grownBy (n : Nat) : Nat → Nat → Nat
  | 0, s => s
  | k + 1, s => grownBy n k (grown n s)

/-- Sufficient fuel for all loops of `infer`, if the forest has `s` nodes. That the loops never use it up is part of the theorems. -/
def inferFuel (gm : GM V) (s : Nat) : Nat :=
  let b := grownBy gm.numberOfVariables gm.numberOfVariables s
  b * b + b + 3 * Icm.fuel gm + 3 + gm.numberOfVariables + 1

/-- lazyflipper.hxx 758-877, 887-964 `infer` -/
def infer (c : Request V) (lf : LF V) : Option (LF V) :=
  let k := inferFuel lf.m.gm lf.forest.nodes.length
  lengthLoop (useMulti lf) ⟨c, k⟩ k 1 lf 0

/-- lazyflipper.hxx 974-991 `arg`, for `n` ≤ 1: the labels of all variables. -/
def arg (lf : LF V) : Option (List Nat) := (List.range lf.m.gm.numberOfVariables).mapM (fun v => lf.m.state[v]?)

/-- lazyflipper.hxx 993-998 -/
def value (lf : LF V) : V := lf.m.value

end LazyFlip
end OpenGM
