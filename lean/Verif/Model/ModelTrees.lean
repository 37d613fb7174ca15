import Verif.Model.FactorGraph
/-
Model of include/opengm/utilities/modelTrees.hxx (class modelTrees): the trees of a model, found by removing leafs.

Simplifications: sets of variables are sorted lists; the stack `leafs` is a list with `leafs.back()` first. The while loops have a fuel: the bound is part of the model, and that it is never exhausted
is proved. The decrement of a degree 0 (which would wrap around) is undefined. `representives_[r]` inserts 0 for a key r that is missing: here it is 0, the map being unchanged.
-/
namespace OpenGM
namespace ModelTrees
variable {V : Type}

/-- modelTrees.hxx 61-67: the variables of the constructor. -/
structure State where
  neighbors : List (List Nat)
  degree : List Nat
  leafs : List Nat
  roots : List Bool
  parents : List Nat

/-- modelTrees.hxx 71-77: the loop over the variables; `leafs` is pushed at its front. -/
def initLoop (n : Nat) (neighbors : List (List Nat)) : List Nat → List Nat → List Nat → List Nat → Option (List Nat × List Nat × List Nat)
  | [], degree, parents, leafs => some (degree, parents, leafs)
  | i :: is, degree, parents, leafs =>
    match neighbors[i]? with
    | none => none
    | some l =>
      match setAt degree i l.length, setAt parents i n with
      | some degree, some parents => initLoop n neighbors is degree parents (if l.length = 1 then i :: leafs else leafs)
      | _, _ => none

/-- modelTrees.hxx 82-92: leaf `l` is removed. -/
def removeLeaf (st : State) (l : Nat) : Option State :=
  match st.neighbors[l]? with
  | some (w :: _) =>
    match setAt st.roots w true with
    | none => none
    | some roots =>
      match setAt roots l false, setAt st.parents l w with
      | some roots, some parents =>
        match setAt parents w w, st.degree[w]?, st.neighbors[w]? with
        | some parents, some (d + 1), some ws =>
          if l ∈ ws then
            match setAt st.degree w d, setAt st.neighbors w (ws.erase l) with
            | some degree, some neighbors => some { neighbors := neighbors, degree := degree, leafs := if d = 1 then w :: st.leafs else st.leafs, roots := roots, parents := parents }
            | _, _ => none
          else none
        | _, _, _ => none
      | _, _ => none
  | _ => none

/-- modelTrees.hxx 78-94: the while loop. -/
def leafLoop : Nat → State → Option State
  | 0, _ => none
  | k + 1, st =>
    match st.leafs with
    | [] => some st
    | l :: leafs =>
      match st.degree[l]? with
      | none => none
      | some d =>
        if d > 0 then
          match removeLeaf { st with leafs := leafs } l with
          | none => none
          | some st => leafLoop k st
        else leafLoop k { st with leafs := leafs }

/-- modelTrees.hxx 44-49: the members; `representives` is the map, as a list of pairs. -/
structure Trees where
  numberOfVariables : Nat
  representives : List (Nat × Nat)
  parents : List Nat
  roots : List Bool
  numberOfRoots : Nat

/-- modelTrees.hxx 97-102: the numbering of the roots. -/
def numberRoots (roots : List Bool) : List Nat → List (Nat × Nat) → Nat → Option (List (Nat × Nat) × Nat)
  | [], rep, k => some (rep, k)
  | i :: is, rep, k =>
    match roots[i]? with
    | none => none
    | some true => numberRoots roots is (rep ++ [(i, k)]) (k + 1)
    | some false => numberRoots roots is rep k

/-- modelTrees.hxx 55-104: the constructor. -/
def construct (gm : GM V) : Option Trees :=
  match gm.factorGraph.variableAdjacencyList with
  | none => none
  | some neighbors =>
    match initLoop gm.numberOfVariables neighbors (List.range gm.numberOfVariables) (List.replicate gm.numberOfVariables 0) (List.replicate gm.numberOfVariables 0) [] with
    | none => none
    | some (degree, parents, leafs) =>
      match leafLoop (3 * gm.numberOfVariables + 1) ⟨neighbors, degree, leafs, List.replicate gm.numberOfVariables false, parents⟩ with
      | none => none
      | some st =>
        match numberRoots st.roots (List.range gm.numberOfVariables) [] 0 with
        | none => none
        | some (rep, k) => some ⟨gm.numberOfVariables, rep, st.parents, st.roots, k⟩

/-- modelTrees.hxx 106-110 `numberOfTrees`. -/
def Trees.numberOfTrees (m : Trees) : Nat := m.numberOfRoots

/-- modelTrees.hxx 119-123: follow the parents. -/
def follow (parents : List Nat) : Nat → Nat → Option Nat
  | 0, _ => none
  | k + 1, r =>
    match parents[r]? with
    | none => none
    | some q => if q ≠ r then follow parents k q else some r

/-- modelTrees.hxx 112-125 `treeOfVariable`. -/
def Trees.treeOfVariable (m : Trees) (i : Nat) : Option Nat :=
  match m.parents[i]? with
  | none => none
  | some q => if q = m.numberOfVariables then some m.numberOfVariables else follow m.parents (m.numberOfVariables + 1) i

/-- modelTrees.hxx 132-138: the loop of `roots`; `j` is the number of roots written. -/
def rootsLoop (isRoot : List Bool) : List Nat → Nat → List Nat → Option (List Nat)
  | [], _, out => some out
  | i :: is, j, out =>
    match isRoot[i]? with
    | none => none
    | some true =>
      match setAt out j i with
      | none => none
      | some out => rootsLoop isRoot is (j + 1) out
    | some false => rootsLoop isRoot is j out

/-- `std::vector::resize`. -/
def resized {A : Type} (a : A) (l : List A) (k : Nat) : List A := l.take k ++ List.replicate (k - l.length) a

/-- modelTrees.hxx 127-139 `roots`; `out` is the vector given. -/
def Trees.rootsOf (m : Trees) (out : List Nat) : Option (List Nat) :=
  rootsLoop m.roots (List.range m.numberOfVariables) 0 (resized 0 out m.numberOfRoots)

/-- modelTrees.hxx 141-150 `parentOfVariable`. -/
def Trees.parentOfVariable (m : Trees) (i : Nat) : Option Nat :=
  match m.parents[i]? with
  | none => none
  | some q => if q = m.numberOfVariables then some m.numberOfVariables else some q

/-- 159, 171: `representives_[r]`. -/
def Trees.representive (m : Trees) (r : Nat) : Nat :=
  match m.representives.find? (fun e => e.1 == r) with
  | some e => e.2
  | none => 0

/-- modelTrees.hxx 157-162: the loop of `nodes`. -/
def nodesLoop (m : Trees) : List Nat → List (List Nat) → Option (List (List Nat))
  | [], out => some out
  | i :: is, out =>
    match m.parents[i]? with
    | none => none
    | some q =>
      if q ≠ m.numberOfVariables then
        match m.treeOfVariable i with
        | none => none
        | some r =>
          match out[m.representive r]? with
          | none => none
          | some l => nodesLoop m is (out.set (m.representive r) (l ++ [i]))
      else nodesLoop m is out

/-- modelTrees.hxx 152-163 `nodes`; `out` is the vector given. -/
def Trees.nodes (m : Trees) (out : List (List Nat)) : Option (List (List Nat)) :=
  nodesLoop m (List.range m.numberOfVariables) (resized [] out m.numberOfRoots)

/-- modelTrees.hxx 164-173 `treeOfRoot`. -/
def Trees.treeOfRoot (m : Trees) (i : Nat) : Option Nat :=
  match m.parents[i]? with
  | none => none
  | some q =>
    if q = m.numberOfVariables then some m.numberOfVariables
    else
      match m.treeOfVariable i with
      | none => none
      | some r => some (m.representive r)

end ModelTrees
end OpenGM
