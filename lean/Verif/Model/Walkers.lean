import Verif.Model.Basic
/-
Model of include/opengm/utilities/indexing.hxx: the walkers over all coordinate tuples of a shape.

Tuples are lists. A loop over the dimensions `d` is a recursion over the list of the `d` still to visit; `none` is an access out of range.
`shape[d] - 1` wraps around for extent 0 in the code; here it is 0, so that the model is only meant for positive extents.
-/
namespace OpenGM
namespace Walkers

/-- indexing.hxx 129-147 `ShapeWalker::operator++`: the loop over `d`. -/
def shapeWalkerLoop (shape : List Nat) : List Nat → List Nat → Option (List Nat)
  | [], c => some c
  | d :: ds, c =>
    match c[d]?, shape[d]? with
    | some x, some n =>
      if x ≠ n - 1 then setAt c d (x + 1)
      else if d ≠ shape.length - 1 then (setAt c d 0).bind (shapeWalkerLoop shape ds)
      else setAt c d (x + 1)
    | _, _ => none

/-- indexing.hxx 129-147 `ShapeWalker::operator++`. -/
def shapeWalkerNext (shape c : List Nat) : Option (List Nat) := shapeWalkerLoop shape (List.range shape.length) c

/-- indexing.hxx 125-128: the constructor sets all coordinates to 0; `reset` (151-153) as well. -/
def shapeWalkerInit (shape : List Nat) : List Nat := List.replicate shape.length 0

/-- indexing.hxx 168-189 `ShapeWalkerSwitchedOrder::operator++`: the loop from `d` downwards. -/
def switchedLoop (shape : List Nat) : Nat → List Nat → Option (List Nat)
  | 0, c =>
    match c[0]?, shape[0]? with
    | some x, some _ => setAt c 0 (x + 1)
    | _, _ => none
  | d + 1, c =>
    match c[d + 1]?, shape[d + 1]? with
    | some x, some n =>
      if x ≠ n - 1 then setAt c (d + 1) (x + 1) else (setAt c (d + 1) 0).bind (switchedLoop shape d)
    | _, _ => none

/-- indexing.hxx 168-189 `ShapeWalkerSwitchedOrder::operator++`; for dimension 0, `dimension_-1` wraps around and the access is
out of range. -/
def switchedNext (shape c : List Nat) : Option (List Nat) :=
  match shape.length with
  | 0 => none
  | d + 1 => switchedLoop shape d c

/-- indexing.hxx 41-43, 51-53: write the fixed values. -/
def writeFixed : List Nat → List Nat → List Nat → Option (List Nat)
  | [], _, c => some c
  | _ :: _, [], _ => none
  | i :: is, v :: vs, c => (setAt c i v).bind (writeFixed is vs)

/-- indexing.hxx 29-44: constructor of SubShapeWalker; also `resetCoordinate` (47-54). -/
def subInit (dimension : Nat) (fixedIndex fixedValue : List Nat) : Option (List Nat) :=
  writeFixed fixedIndex fixedValue (List.replicate dimension 0)

/-- indexing.hxx 60-66: does `d` occur in the fixed indices from position `counter` on; the counter is incremented for
each occurrence. -/
def fixedScan (fixedIndex : List Nat) (d counter : Nat) : Bool × Nat :=
  (fixedIndex.drop counter).foldl (fun (s : Bool × Nat) i => if d = i then (true, s.2 + 1) else s) (false, counter)

/-- indexing.hxx 57-84 `SubShapeWalker::operator++`: the loop over `d`. -/
def subLoop (shape fixedIndex : List Nat) : List Nat → Nat → List Nat → Option (List Nat)
  | [], _, c => some c
  | d :: ds, counter, c =>
    match fixedScan fixedIndex d counter with
    | (true, counter') => subLoop shape fixedIndex ds counter' c
    | (false, counter') =>
      match c[d]?, shape[d]? with
      | some x, some n =>
        if x ≠ n - 1 then setAt c d (x + 1)
        else if d ≠ shape.length - 1 then (setAt c d 0).bind (subLoop shape fixedIndex ds counter')
        else setAt c d (x + 1)
      | _, _ => none

/-- indexing.hxx 57-84 `SubShapeWalker::operator++`. -/
def subNext (shape fixedIndex c : List Nat) : Option (List Nat) :=
  subLoop shape fixedIndex (List.range shape.length) 0 c

/-- indexing.hxx 96-104: as `fixedScan`, but the loop is left at the first occurrence. -/
def fixedFirst (fixedIndex : List Nat) (d counter : Nat) : Bool × Nat :=
  if (fixedIndex.drop counter).any (fun i => d = i) then (true, counter + 1) else (false, counter)

/-- indexing.hxx 92-110 `subSize`: the loop over `d`. -/
def subSizeLoop (shape fixedIndex : List Nat) : List Nat → Nat → Nat → Option Nat
  | [], _, result => some result
  | d :: ds, counter, result =>
    match fixedFirst fixedIndex d counter with
    | (true, counter') => subSizeLoop shape fixedIndex ds counter' result
    | (false, counter') =>
      match shape[d]? with
      | some n => subSizeLoop shape fixedIndex ds counter' (result * n)
      | none => none

/-- indexing.hxx 92-110 `subSize`. -/
def subSize (shape fixedIndex : List Nat) : Option Nat := subSizeLoop shape fixedIndex (List.range shape.length) 0 1

/-- The per-dimension records of one of the smaller index sets of a Double/TripleShapeWalker: `viMatch_[d]` together with
`viMatchIndex_[d]` (`none` when `viMatch_[d]` is false; the index is then never read). -/
abbrev Match := List (Option Nat)

/-- indexing.hxx 224-241: matching of `viAB[d]` with `viA[counterA]` (constructor of TripleShapeWalker; the same for B). -/
def tripleMatch (viA : List Nat) : List Nat → Nat → Match
  | [], _ => []
  | v :: viAB, counter =>
    match viA[counter]? with
    | some w => if v = w then some counter :: tripleMatch viA viAB (counter + 1) else none :: tripleMatch viA viAB counter
    | none => none :: tripleMatch viA viAB counter

/-- indexing.hxx 312-318: the inner loop of the constructor of DoubleShapeWalker for one `d`: position `i` runs from the
value of counterA at the start of the loop; result: match record and new counterA. -/
def doubleScan (v : Nat) : List Nat → Nat → Option Nat × Nat → Option Nat × Nat
  | [], _, s => s
  | w :: ws, i, s => doubleScan v ws (i + 1) (if v = w then (some i, s.2 + 1) else s)

/-- indexing.hxx 310-319: matching in the constructor of DoubleShapeWalker. -/
def doubleMatch (viA : List Nat) : List Nat → Nat → Match
  | [], _ => []
  | v :: viAB, counter =>
    let s := doubleScan v (viA.drop counter) counter (none, counter)
    s.1 :: doubleMatch viA viAB s.2

/-- indexing.hxx 248-253, 258-263, 326-328, 333-335: apply the change of coordinate `d` to the tuple of a smaller index set. -/
def follow (m : Match) (d : Nat) (change : Nat → Nat) (a : List Nat) : Option (List Nat) :=
  match m[d]? with
  | none => none
  | some none => some a
  | some (some j) =>
    match a[j]? with
    | none => none
    | some x => setAt a j (change x)

/-- Coordinate tuples of AB, A and B. -/
structure Coords where
  ab : List Nat
  a : List Nat
  b : List Nat
  deriving DecidableEq

/-- indexing.hxx 244-267 `TripleShapeWalker::operator++`: the loop over `d`. -/
def tripleLoop (shape : List Nat) (mA mB : Match) : List Nat → Coords → Option Coords
  | [], c => some c
  | d :: ds, c =>
    match c.ab[d]?, shape[d]? with
    | some x, some n =>
      if x ≠ n - 1 then
        match setAt c.ab d (x + 1), follow mA d (· + 1) c.a, follow mB d (· + 1) c.b with
        | some ab, some a, some b => some ⟨ab, a, b⟩
        | _, _, _ => none
      else
        match setAt c.ab d 0, follow mA d (fun _ => 0) c.a, follow mB d (fun _ => 0) c.b with
        | some ab, some a, some b => tripleLoop shape mA mB ds ⟨ab, a, b⟩
        | _, _, _ => none
    | _, _ => none

/-- indexing.hxx 204-242: constructor of TripleShapeWalker: zero tuples. -/
def tripleInit (viAB viA viB : List Nat) : Coords :=
  ⟨List.replicate viAB.length 0, List.replicate viA.length 0, List.replicate viB.length 0⟩

/-- indexing.hxx 204-267: one step of a TripleShapeWalker constructed with these arguments. -/
def tripleNext (shape viAB viA viB : List Nat) (c : Coords) : Option Coords :=
  tripleLoop shape (tripleMatch viA viAB 0) (tripleMatch viB viAB 0) (List.range shape.length) c

/-- indexing.hxx 322-339 `DoubleShapeWalker::operator++`: the loop over `d`; the pair is (AB tuple, A tuple). -/
def doubleLoop (shape : List Nat) (mA : Match) : List Nat → List Nat × List Nat → Option (List Nat × List Nat)
  | [], c => some c
  | d :: ds, c =>
    match c.1[d]?, shape[d]? with
    | some x, some n =>
      if x ≠ n - 1 then
        match setAt c.1 d (x + 1), follow mA d (· + 1) c.2 with
        | some ab, some a => some (ab, a)
        | _, _ => none
      else
        match setAt c.1 d 0, follow mA d (fun _ => 0) c.2 with
        | some ab, some a => doubleLoop shape mA ds (ab, a)
        | _, _ => none
    | _, _ => none

/-- indexing.hxx 296-320: constructor of DoubleShapeWalker: zero tuples. -/
def doubleInit (viAB viA : List Nat) : List Nat × List Nat :=
  (List.replicate viAB.length 0, List.replicate viA.length 0)

/-- indexing.hxx 296-339: one step of a DoubleShapeWalker constructed with these arguments. -/
def doubleNext (shape viAB viA : List Nat) (c : List Nat × List Nat) : Option (List Nat × List Nat) :=
  doubleLoop shape (doubleMatch viA viAB 0) (List.range shape.length) c

/-- `k` applications of `operator++`. -/
def steps {α : Type} (next : α → Option α) : Nat → α → Option α
  | 0, c => some c
  | k + 1, c => (next c).bind (steps next k)

end Walkers
end OpenGM
