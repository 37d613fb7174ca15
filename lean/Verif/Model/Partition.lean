import Verif.Model.Basic
/-
Model of include/opengm/datastructures/partition.hxx (disjoint sets with path compression and union by rank).
The element type is `Nat`. `none` is undefined behaviour (out-of-range element) or non-termination of a search loop.
-/
namespace OpenGM

/-- partition.hxx 34-38: data members. -/
structure Partition where
  parents : List Nat
  ranks : List Nat
  numberOfElements : Nat
  numberOfSets : Nat

namespace Partition

/-- partition.hxx 55-70 constructor and 75-91 `reset` (same resulting state). -/
def ofSize (size : Nat) : Partition := ⟨List.range size, List.replicate size 0, size, size⟩

/-- partition.hxx 105-109, 125-128: `while(parents_[root] != root) root = parents_[root]`, at most `fuel` tests. -/
def findRoot (parents : List Nat) : Nat → Nat → Option Nat
  | 0, _ => none
  | fuel + 1, root =>
    match parents[root]? with
    | none => none
    | some p => if p ≠ root then findRoot parents fuel p else some root

/-- partition.hxx 98-111 `find(element) const`. At most `size` tests of the loop are modelled (more are never needed,
which is part of what is proved). -/
def findConst (P : Partition) (element : Nat) : Option Nat := findRoot P.parents P.parents.length element

/-- partition.hxx 130-134: the path compression loop, at most `fuel` tests. -/
def compress (root : Nat) : Nat → List Nat → Nat → Option (List Nat)
  | 0, _, _ => none
  | fuel + 1, parents, element =>
    if element ≠ root then
      match parents[element]? with
      | none => none
      | some tmp => compress root fuel (parents.set element root) tmp
    else some parents

/-- partition.hxx 119-136 `find(element)` with path compression. -/
def find (P : Partition) (element : Nat) : Option (Nat × Partition) :=
  match findRoot P.parents P.parents.length element with
  | none => none
  | some root =>
    match compress root P.parents.length P.parents element with
    | none => none
    | some parents => some (root, { P with parents := parents })

/-- partition.hxx 145-170 `merge`. -/
def merge (P : Partition) (element1 element2 : Nat) : Option Partition :=
  match P.find element1 with
  | none => none
  | some (e1, P1) =>
    match P1.find element2 with
    | none => none
    | some (e2, P2) =>
      match P2.ranks[e1]?, P2.ranks[e2]? with
      | some r1, some r2 =>
        if r1 < r2 then
          some { P2 with parents := P2.parents.set e1 e2, numberOfSets := P2.numberOfSets - 1 }
        else if r1 > r2 then
          some { P2 with parents := P2.parents.set e2 e1, numberOfSets := P2.numberOfSets - 1 }
        else if e1 ≠ e2 then
          some { P2 with parents := P2.parents.set e2 e1, ranks := P2.ranks.set e1 (r1 + 1),
                         numberOfSets := P2.numberOfSets - 1 }
        else some P2
      | _, _ => none

/-- partition.hxx 175-189 `insert(number)`: appended zeros are then overwritten by their own index. -/
def insert (P : Partition) (number : Nat) : Partition :=
  { parents := P.parents ++ (List.range number).map (fun j => P.numberOfElements + j),
    ranks := P.ranks ++ List.replicate number 0,
    numberOfElements := P.numberOfElements + number,
    numberOfSets := P.numberOfSets + number }

/-- partition.hxx 195-209 `representatives`: the elements written, in order. -/
def representatives (P : Partition) : List Nat :=
  (List.range P.numberOfElements).filter (fun j => P.parents[j]? = some j)

/-- partition.hxx 214-228 `representativeLabeling`: the map as an association list. The representatives are written into a
vector of `numberOfSets()` entries; writing more is undefined, entries not written stay 0. -/
def representativeLabeling (P : Partition) : Option (List (Nat × Nat)) :=
  let reps := P.representatives
  if reps.length ≤ P.numberOfSets then
    let r := reps ++ List.replicate (P.numberOfSets - reps.length) 0
    -- later assignments to the same key overwrite earlier ones
    some (r.zipIdx.reverse)
  else none

/-- partition.hxx 233-247 `elementLabeling`: `rl[find(j)]` for every element; `operator[]` of std::map gives 0 for a
missing key. -/
def elementLabeling (P : Partition) : Option (List Nat) :=
  match P.representativeLabeling with
  | none => none
  | some rl => (List.range P.numberOfElements).mapM (fun j =>
      match P.findConst j with
      | none => none
      | some r => match rl.lookup r with
        | some l => some l
        | none => some 0)

end Partition
end OpenGM
