import Verif.Model.GraphicalModel
/-
Model of include/opengm/graphicalmodel/graphviews/factorgraph.hxx (class FactorGraph), the CRTP base class that
answers structural queries through numberOfVariables(), numberOfFactors(), numberOfVariables(f),
variableOfFactor(f,j), numberOfFactors(v), factorOfVariable(v,j).
-/
namespace OpenGM

/-- What FactorGraph sees of the derived class: the number of variables, the variables of each factor, the factors of each
variable (factorgraph.hxx 100-262: accessors forwarding to the special type). -/
structure FG where
  numVars : Nat
  scopes : List (List Nat)
  adj : List (List Nat)

/-- The factor graph interface of a model object (graphicalmodel.hxx 242-308). -/
def GM.factorGraph {V : Type} (gm : GM V) : FG :=
  ⟨gm.numberOfVariables, gm.factors.map gm.scope, gm.adj⟩

namespace FG

/-- `std::binary_search(begin, end, v)`: lower bound, then `!(v < *it)`. -/
def binarySearch (l : List Nat) (v : Nat) : Bool :=
  match l[RandomAccessSet.lowerBound natLess l v]? with
  | none => false
  | some x => !natLess v x

/-- factorgraph.hxx 267-285 `variableFactorConnection`; out-of-range factor is undefined. -/
def variableFactorConnection (g : FG) (v f : Nat) : Option Bool :=
  (g.scopes[f]?).map (fun s => binarySearch s v)

/-- factorgraph.hxx 292-302 `factorVariableConnection`. -/
def factorVariableConnection (g : FG) (f v : Nat) : Option Bool := g.variableFactorConnection v f

/-- The two-iterator loop of factorgraph.hxx 318-330 and 811-823. -/
def mergeWalk : List Nat → List Nat → Bool
  | [], _ => false
  | _ :: _, [] => false
  | a :: as, b :: bs =>
    if a < b then mergeWalk as (b :: bs)
    else if a = b then true
    else mergeWalk (a :: as) bs
termination_by l1 l2 => l1.length + l2.length

/-- factorgraph.hxx 308-333 `variableVariableConnection`. -/
def variableVariableConnection (g : FG) (v w : Nat) : Option Bool :=
  if v ≠ w then
    match g.adj[v]?, g.adj[w]? with
    | some a, some b => some (mergeWalk a b)
    | _, _ => none
  else some false

/-- factorgraph.hxx 801-826 `factorFactorConnection`. -/
def factorFactorConnection (g : FG) (f1 f2 : Nat) : Option Bool :=
  if f1 ≠ f2 then
    match g.scopes[f1]?, g.scopes[f2]? with
    | some a, some b => some (mergeWalk a b)
    | _, _ => none
  else some false

/-- factorgraph.hxx 714-722 `maxFactorOrder()`. -/
def maxFactorOrder (g : FG) : Nat :=
  g.scopes.foldl (fun m s => if s.length > m then s.length else m) 0

/-- factorgraph.hxx 729-736 `maxFactorOrder(maxOrder)`. -/
def maxFactorOrderLe (g : FG) (maxOrder : Nat) : Bool := go maxOrder g.scopes
where
  go (maxOrder : Nat) : List (List Nat) → Bool
    | [] => true
    | s :: rest => if s.length > maxOrder then false else go maxOrder rest

/-- factorgraph.hxx 743-752 `numberOfNthOrderFactorsOfVariable(variable, n)`. -/
def numberOfNthOrderFactorsOfVariable (g : FG) (var n : Nat) : Option Nat :=
  match g.adj[var]? with
  | none => none
  | some fs => go g n fs 0
where
  go (g : FG) (n : Nat) : List Nat → Nat → Option Nat
    | [], c => some c
    | f :: fs, c =>
      match g.scopes[f]? with
      | none => none
      | some s => go g n fs (if s.length = n then c + 1 else c)

/-- factorgraph.hxx 760-775: the overload that also writes the factor ids, from the last entry to the first. -/
def nthOrderFactorsOfVariable (g : FG) (var n : Nat) : Option (Nat × List Nat) :=
  match g.adj[var]?, g.numberOfNthOrderFactorsOfVariable var n with
  | some fs, some c => (go g n fs c (List.replicate c 0)).map (fun ids => (ids.length, ids))
  | _, _ => none
where
  go (g : FG) (n : Nat) : List Nat → Nat → List Nat → Option (List Nat)
    | [], _, ids => some ids
    | f :: fs, c, ids =>
      match g.scopes[f]? with
      | none => none
      | some s =>
        if s.length = n then
          match c with
          | 0 => none
          | c + 1 =>
            match setAt ids c f with
            | none => none
            | some ids' => go g n fs c ids'
        else go g n fs c ids

/-- factorgraph.hxx 782-794 `secondVariableOfSecondOrderFactor`. -/
def secondVariableOfSecondOrderFactor (g : FG) (var factor : Nat) : Option Nat :=
  match g.scopes[factor]? with
  | none => none
  | some s => some (go var s)
where
  go (var : Nat) : List Nat → Nat
    | [] => var
    | x :: xs => if x ≠ var then x else go var xs

/-- The double loop `for j, for k=j+1..` over the variables of one factor (factorgraph.hxx 840-842, 888-890): the pairs
visited, in order. -/
def pairs : List Nat → List (Nat × Nat)
  | [] => []
  | x :: xs => xs.map (fun y => (x, y)) ++ pairs xs

/-- `out(i,j) = true` on a matrix stored as rows; out of range is undefined. -/
def setTrue (m : List (List Bool)) (i j : Nat) : Option (List (List Bool)) :=
  match m[i]? with
  | none => none
  | some row => (setAt row j true).map (fun row' => m.set i row')

/-- factorgraph.hxx 831-848 `variableAdjacencyMatrix`. -/
def variableAdjacencyMatrix (g : FG) : Option (List (List Bool)) :=
  g.scopes.foldlM (fun m s => (pairs s).foldlM (fun m p => (setTrue m p.1 p.2).bind (fun m' => setTrue m' p.2 p.1)) m)
    (List.replicate g.numVars (List.replicate g.numVars false))

/-- `out[i].insert(x)`. -/
def insertAt (out : List (List Nat)) (i x : Nat) : Option (List (List Nat)) :=
  match out[i]? with
  | none => none
  | some s => some (out.set i (RandomAccessSet.insert natLess s x).1)

/-- factorgraph.hxx 876-896 `templatedVariableAdjacencyList` (also for std::set, whose iteration order is that of the sorted
vector). -/
def variableAdjacencyList (g : FG) : Option (List (List Nat)) :=
  g.scopes.foldlM (fun m s => (pairs s).foldlM (fun m p => (insertAt m p.1 p.2).bind (fun m' => insertAt m' p.2 p.1)) m)
    (List.replicate g.numVars [])

/-- factorgraph.hxx 918-938 `templatedFactorAdjacencyList`. Note line 929: the factors of variable `v` are visited where `v`
is the position within the factor, not the variable index. -/
def factorAdjacencyList (g : FG) : Option (List (List Nat)) :=
  loopF g g.scopes 0 (List.replicate g.scopes.length [])
where
  loopFF (f : Nat) : List Nat → List (List Nat) → Option (List (List Nat))
    | [], out => some out
    | fOfVar :: rest, out =>
      if f ≠ fOfVar then
        match insertAt out f fOfVar with
        | none => none
        | some out' => loopFF f rest out'
      else loopFF f rest out
  loopV (g : FG) (f : Nat) : List Nat → List (List Nat) → Option (List (List Nat))
    | [], out => some out
    | v :: vs, out =>
      match g.adj[v]? with
      | none => none
      | some fs =>
        match loopFF f fs out with
        | none => none
        | some out' => loopV g f vs out'
  loopF (g : FG) : List (List Nat) → Nat → List (List Nat) → Option (List (List Nat))
    | [], _, out => some out
    | s :: rest, f, out =>
      match loopV g f (List.range s.length) out with
      | none => none
      | some out' => loopF g rest (f + 1) out'

end FG
end OpenGM
