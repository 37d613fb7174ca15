import Verif.Model.Decomposition
import Verif.Model.Partition
import Verif.Model.FactorGraph
/-
Model of include/opengm/graphicalmodel/decomposition/graphicalmodeldecomposer.hxx (class GraphicalModelDecomposer).

The model to decompose is given by its number of variables `n` and the variables `scopes` of its factors; only decomposeIntoKFans also uses the factors
of each variable. `none` is undefined behaviour or (decomposeIntoSpanningTrees) a loop that does not end. std::set arguments are lists without repetitions
in increasing order. decomposeIntoClosedBlocks(gm, numBlocks), which computes the blocks with floating point numbers, is not modelled.
-/
namespace OpenGM
namespace Decomposer

/-- `addSubModel` called `M` times: graphicalmodeldecomposer.hxx 67-69. -/
def addModels (d : Decomposition) : Nat → Decomposition
  | 0 => d
  | M + 1 => addModels d.addSubModel.2 M

/-- graphicalmodeldecomposer.hxx 78-80, 393-396: the number of the copy of `v` in the submodel, which is added if it is not there yet. -/
def mapVar (sentinel m : Nat) (d : Decomposition) (ids : List Nat) (v : Nat) : Option (Nat × Decomposition × List Nat) :=
  match ids[v]? with
  | none => none
  | some k =>
    if k = sentinel then
      match d.addSubVariable m v with
      | none => none
      | some (k', d') => some (k', d', ids.set v k')
    else some (k, d, ids)

/-- graphicalmodeldecomposer.hxx 76-82, 391-398: the loop over the variables of a factor. -/
def mapVars (sentinel m : Nat) : List Nat → Decomposition → List Nat → Option (List Nat × Decomposition × List Nat)
  | [], d, ids => some ([], d, ids)
  | v :: vs, d, ids =>
    match mapVar sentinel m d ids v with
    | none => none
    | some (k, d', ids') =>
      match mapVars sentinel m vs d' ids' with
      | none => none
      | some (ks, d'', ids'') => some (k :: ks, d'', ids'')

/-- graphicalmodeldecomposer.hxx 74-83, 390-399: add the missing variables of the factor, then the factor. -/
def placeFactor (scopes : List (List Nat)) (sentinel m : Nat) (st : Decomposition × List Nat) (f : Nat) : Option (Decomposition × List Nat) :=
  match scopes[f]? with
  | none => none
  | some vars =>
    match mapVars sentinel m vars st.1 st.2 with
    | none => none
    | some (ks, d, ids) =>
      match d.addSubFactor m f ks with
      | none => none
      | some (_, d') => some (d', ids)

/-- graphicalmodeldecomposer.hxx 70-85: the loop body for one submodel; "not added yet" is the number of variables. -/
def manualModel (n : Nat) (scopes : List (List Nat)) (d : Decomposition) (p : List Nat × Nat) : Option Decomposition :=
  (p.1.foldlM (placeFactor scopes n p.2) (d, List.replicate n n)).map Prod.fst

/-- graphicalmodeldecomposer.hxx 58-88 `decomposeManual`. -/
def manual (n : Nat) (scopes : List (List Nat)) (subModelFactors : List (List Nat)) : Option Decomposition :=
  match subModelFactors.zipIdx.foldlM (manualModel n scopes) (addModels (Decomposition.make n scopes.length 0) subModelFactors.length) with
  | none => none
  | some d => d.reorder

/-- graphicalmodeldecomposer.hxx 101-103, 143-145: a copy of every variable. -/
def addAll (m : Nat) (vs : List Nat) (d : Decomposition) : Option Decomposition :=
  vs.foldlM (fun d v => (d.addSubVariable m v).map Prod.snd) d

/-- graphicalmodeldecomposer.hxx 107-115: the loop over the variables of a factor; `seen` are the sets with a positive counter. -/
def treeVars : List Nat → List Nat → Decomposition → Partition → Option (List Nat × Decomposition × Partition)
  | [], _, d, P => some ([], d, P)
  | v :: vs, seen, d, P =>
    match P.find v with
    | none => none
    | some (r, P') =>
      if r ∈ seen then
        match d.addSubVariable 0 v with
        | none => none
        | some (k, d') =>
          match treeVars vs (r :: seen) d' P' with
          | none => none
          | some (ks, d'', P'') => some (k :: ks, d'', P'')
      else
        match treeVars vs (r :: seen) d P' with
        | none => none
        | some (ks, d'', P'') => some (v :: ks, d'', P'')

/-- graphicalmodeldecomposer.hxx 117-119, 186-188: merge the sets of consecutive variables. -/
def mergeChain : List Nat → Partition → Option Partition
  | v :: w :: vs, P =>
    match P.merge v w with
    | none => none
    | some P' => mergeChain (w :: vs) P'
  | _, P => some P

/-- graphicalmodeldecomposer.hxx 104-120: the loop body for one factor. -/
def treeFactor (st : Decomposition × Partition) (p : List Nat × Nat) : Option (Decomposition × Partition) :=
  match treeVars p.1 [] st.1 st.2 with
  | none => none
  | some (ks, d, P) =>
    match d.addSubFactor 0 p.2 ks with
    | none => none
    | some (_, d') => (mergeChain p.1 P).map (fun P' => (d', P'))

/-- graphicalmodeldecomposer.hxx 90-123 `decomposeIntoTree`. -/
def tree (n : Nat) (scopes : List (List Nat)) : Option Decomposition :=
  match addAll 0 (List.range n) (Decomposition.make n scopes.length 0).addSubModel.2 with
  | none => none
  | some d =>
    match scopes.zipIdx.foldlM treeFactor (d, Partition.ofSize n) with
    | none => none
    | some (d', _) => d'.reorder

/-- graphicalmodeldecomposer.hxx 161-170: can the factor be inserted into the submodel? -/
def insertable : List Nat → List Nat → Partition → Option (Bool × Partition)
  | [], _, P => some (true, P)
  | v :: vs, seen, P =>
    match P.find v with
    | none => none
    | some (r, P') => if r ∈ seen then some (false, P') else insertable vs (r :: seen) P'

/-- graphicalmodeldecomposer.hxx 158-195: the loop over the current list. Returns the factors that were not inserted and those that were, in order. -/
def passList (scopes : List (List Nat)) (m : Nat) : List Nat → Decomposition → Partition → Option (List Nat × List Nat × Decomposition × Partition)
  | [], d, P => some ([], [], d, P)
  | f :: fs, d, P =>
    match scopes[f]? with
    | none => none
    | some vars =>
      match insertable vars [] P with
      | none => none
      | some (true, P') =>
        match d.addSubFactor m f vars with
        | none => none
        | some (_, d') =>
          match mergeChain vars P' with
          | none => none
          | some P'' =>
            match passList scopes m fs d' P'' with
            | none => none
            | some (kept, ins, d'', P3) => some (kept, f :: ins, d'', P3)
      | some (false, P') =>
        match passList scopes m fs d P' with
        | none => none
        | some (kept, ins, d'', P3) => some (f :: kept, ins, d'', P3)

/-- graphicalmodeldecomposer.hxx 141-197: one round of the outer loop; the factors inserted from the white list move to the end of the black list. -/
def spanningRound (n : Nat) (scopes : List (List Nat)) (white black : List Nat) (d : Decomposition) : Option (List Nat × List Nat × Decomposition) :=
  let m := d.addSubModel.1
  match addAll m (List.range n) d.addSubModel.2 with
  | none => none
  | some d1 =>
    match passList scopes m white d1 (Partition.ofSize n) with
    | none => none
    | some (white', gray, d2, P2) =>
      match passList scopes m black d2 P2 with
      | none => none
      | some (_, _, d3, _) => some (white', black ++ gray, d3)

/-- graphicalmodeldecomposer.hxx 141-197: `while(!whiteList.empty())`, at most `fuel` rounds. -/
def spanningLoop (n : Nat) (scopes : List (List Nat)) : Nat → List Nat → List Nat → Decomposition → Option Decomposition
  | _, [], _, d => some d
  | 0, _ :: _, _, _ => none
  | fuel + 1, f :: fs, black, d =>
    match spanningRound n scopes (f :: fs) black d with
    | none => none
    | some (white', black', d') => spanningLoop n scopes fuel white' black' d'

/-- graphicalmodeldecomposer.hxx 125-199 `decomposeIntoSpanningTrees`. At most as many rounds as there are factors are modelled. -/
def spanningTrees (n : Nat) (scopes : List (List Nat)) : Option Decomposition :=
  spanningLoop n scopes scopes.length (List.range scopes.length) [] (Decomposition.make n scopes.length 0)

/-- `flags[v] = true` -/
def setFlag (flags : List Bool) (v : Nat) : Option (List Bool) := if v < flags.length then some (flags.set v true) else none

/-- graphicalmodeldecomposer.hxx 246-248: flag the variables of one factor. -/
def flagFactor (g : FG) (flags : List Bool) (f : Nat) : Option (List Bool) :=
  match g.scopes[f]? with
  | none => none
  | some vars => vars.foldlM setFlag flags

/-- graphicalmodeldecomposer.hxx 242-250: flag an inner variable and the variables of its factors. -/
def flagVar (g : FG) (flags : List Bool) (v : Nat) : Option (List Bool) :=
  match setFlag flags v, g.adj[v]? with
  | some flags', some fs => fs.foldlM (flagFactor g) flags'
  | _, _ => none

/-- graphicalmodeldecomposer.hxx 251-255: copies of the flagged variables; `subVars` is a vector of `n` zeros at first. -/
def fanVars (m : Nat) (flags : List Bool) : List Nat → Decomposition → List Nat → Option (Decomposition × List Nat)
  | [], d, subVars => some (d, subVars)
  | v :: vs, d, subVars =>
    match flags[v]? with
    | none => none
    | some false => fanVars m flags vs d subVars
    | some true =>
      match d.addSubVariable m v with
      | none => none
      | some (k, d') => if v < subVars.length then fanVars m flags vs d' (subVars.set v k) else none

/-- graphicalmodeldecomposer.hxx 258-285: the body of the loop over the factors. -/
def fanFactor (m : Nat) (inner : List Nat) (flags : List Bool) (subVars : List Nat) (d : Decomposition) (f : Nat) : List Nat → Outcome Decomposition Unit
  | [] =>
    if m = 0 then
      match d.addSubFactor m f [] with
      | none => .ub
      | some (_, d') => .ok () d'
    else .ok () d
  | [a] =>
    match flags[a]? with
    | none => .ub
    | some false => .ok () d
    | some true =>
      match subVars[a]? with
      | none => .ub
      | some ka =>
        match d.addSubFactor m f [ka] with
        | none => .ub
        | some (_, d') => .ok () d'
  | [a, b] =>
    match flags[a]? with
    | none => .ub
    | some false => .ok () d
    | some true =>
      match flags[b]? with
      | none => .ub
      | some false => .ok () d
      | some true =>
        if a ∈ inner ∨ b ∈ inner then
          match subVars[a]?, subVars[b]? with
          | some ka, some kb =>
            match d.addSubFactor m f [ka, kb] with
            | none => .ub
            | some (_, d') => .ok () d'
          | _, _ => .ub
        else .ok () d
  | _ => .throw d

/-- graphicalmodeldecomposer.hxx 258-285: the loop over the factors. -/
def fanFactors (m : Nat) (inner : List Nat) (flags : List Bool) (subVars : List Nat) : List (List Nat × Nat) → Decomposition → Outcome Decomposition Unit
  | [], d => .ok () d
  | (vars, f) :: rest, d =>
    match fanFactor m inner flags subVars d f vars with
    | .ub => .ub
    | .throw d' => .throw d'
    | .ok _ d' => fanFactors m inner flags subVars rest d'

/-- graphicalmodeldecomposer.hxx 237-286: the loop over the submodels; `d.addSubModel.1` is the number of the new submodel. -/
def fanModels (g : FG) : List (List Nat) → Decomposition → Outcome Decomposition Unit
  | [], d => .ok () d
  | inner :: rest, d =>
    let m := d.addSubModel.1
    match inner.foldlM (flagVar g) (List.replicate g.numVars false) with
    | none => .ub
    | some flags =>
      match fanVars m flags (List.range g.numVars) d.addSubModel.2 (List.replicate g.numVars 0) with
      | none => .ub
      | some (d1, subVars) =>
        match fanFactors m inner flags subVars g.scopes.zipIdx d1 with
        | .ub => .ub
        | .throw d' => .throw d'
        | .ok _ d' => fanModels g rest d'

/-- graphicalmodeldecomposer.hxx 224-288 `decomposeIntoKFans(gm, innerFanVariables)`. -/
def kFans (g : FG) (inner : List (List Nat)) : Outcome Decomposition Unit := fanModels g inner (Decomposition.make g.numVars g.scopes.length 0)

/-- graphicalmodeldecomposer.hxx 216-219: the inner loop; `counter` modulo the number of variables. -/
def fanSet (n : Nat) : Nat → Nat → List Nat → List Nat × Nat
  | 0, counter, s => (s, counter)
  | i + 1, counter, s => fanSet n i ((counter + 1) % n) (Decomposition.setInsert counter s)

/-- graphicalmodeldecomposer.hxx 215-220: the sets of inner variables. -/
def fanSets (n k : Nat) : Nat → Nat → List (List Nat)
  | 0, _ => []
  | M + 1, counter => (fanSet n k counter []).1 :: fanSets n k M (fanSet n k counter []).2

/-- graphicalmodeldecomposer.hxx 201-222 `decomposeIntoKFans(gm, k)`. The quotient computed with doubles and `ceil` is the exact one here (it is for
less than 2^53 variables); for `k = 0` it is infinite or NaN, whose conversion to size_t is undefined. -/
def kFansOfSize (g : FG) (k : Nat) : Outcome Decomposition Unit :=
  if k = 0 then .ub else kFans g (fanSets g.numVars k ((g.numVars + k - 1) / k) 0)

/-- `numeric_limits<size_t>::max()` on 64 bit platforms. -/
def maxSize : Nat := 2 ^ 64 - 1

/-- graphicalmodeldecomposer.hxx 308-309, 375-376: copies of the variables of the block. -/
def blockVars (m : Nat) : List Nat → Decomposition → List Nat → Option (Decomposition × List Nat)
  | [], d, ids => some (d, ids)
  | v :: vs, d, ids =>
    match d.addSubVariable m v with
    | none => none
    | some (k, d') => if v < ids.length then blockVars m vs d' (ids.set v k) else none

/-- `vars.mapM` of a vector access. -/
def readAll (ids : List Nat) (vars : List Nat) : Option (List Nat) := vars.mapM (fun v => ids[v]?)

/-- graphicalmodeldecomposer.hxx 312-330: the body of the loop over the factors. For a factor without variables `test` is true and the index list empty,
so the first branch of the code is an instance of the second. -/
def openFactor (m : Nat) (ids : List Nat) (d : Decomposition) (p : List Nat × Nat) : Option Decomposition :=
  match readAll ids p.1 with
  | none => none
  | some ks => if ks.all (· ≠ maxSize) then (d.addSubFactor m p.2 ks).map Prod.snd else some d

/-- graphicalmodeldecomposer.hxx 304-331: the body of the loop over the blocks. -/
def openBlock (n : Nat) (scopes : List (List Nat)) (d : Decomposition) (inner : List Nat) : Option Decomposition :=
  let m := d.addSubModel.1
  match blockVars m inner d.addSubModel.2 (List.replicate n maxSize) with
  | none => none
  | some (d1, ids) => scopes.zipIdx.foldlM (openFactor m ids) d1

/-- graphicalmodeldecomposer.hxx 290-333 `decomposeIntoOpenBlocks`. -/
def openBlocks (n : Nat) (scopes : List (List Nat)) (inner : List (List Nat)) : Option Decomposition :=
  inner.foldlM (openBlock n scopes) (Decomposition.make n scopes.length 0)

/-- graphicalmodeldecomposer.hxx 379-402: the body of the loop over the factors. -/
def closedFactor (scopes : List (List Nat)) (m : Nat) (inner : List Nat) (st : Decomposition × List Nat) (p : List Nat × Nat) : Option (Decomposition × List Nat) :=
  match p.1 with
  | [] =>
    match st.1.addSubFactor m p.2 [] with
    | none => none
    | some (_, d') => some (d', st.2)
  | _ :: _ => if p.1.any (fun v => decide (v ∈ inner)) then placeFactor scopes maxSize m st p.2 else some st

/-- graphicalmodeldecomposer.hxx 371-402: the body of the loop over the blocks. -/
def closedBlock (n : Nat) (scopes : List (List Nat)) (d : Decomposition) (inner : List Nat) : Option Decomposition :=
  let m := d.addSubModel.1
  match blockVars m inner d.addSubModel.2 (List.replicate n maxSize) with
  | none => none
  | some (d1, ids) => (scopes.zipIdx.foldlM (closedFactor scopes m inner) (d1, ids)).map Prod.fst

/-- graphicalmodeldecomposer.hxx 357-405 `decomposeIntoClosedBlocks(gm, innerVariables)`. -/
def closedBlocks (n : Nat) (scopes : List (List Nat)) (inner : List (List Nat)) : Option Decomposition :=
  match inner.foldlM (closedBlock n scopes) (Decomposition.make n scopes.length 0) with
  | none => none
  | some d => d.reorder

end Decomposer
end OpenGM
