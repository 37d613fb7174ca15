import Verif.Model.Basic
/-
Model of include/opengm/datastructures/marray/marray.hxx: geometry, views, iterators, arrays.

Compiled with NDEBUG: the assertions of the file vanish. Memory of an array is a list of values; a view is an offset into such a
block together with a geometry. `size_t` values are natural numbers. `none` is undefined behaviour (access out of range,
division by zero, write through a pointer to an empty allocation).
-/
namespace OpenGM
namespace Marray

/-- marray.hxx 23. -/
inductive Order where
  | firstMajor
  | lastMajor
  deriving DecidableEq

/-- marray.hxx 28 `defaultOrder`. -/
def defaultOrder : Order := .lastMajor

/-- marray.hxx 6189-6199: `tmp` is the stride written last; the loop goes over the shape. -/
def stridesLoop : Nat → List Nat → List Nat
  | _, [] => []
  | tmp, n :: shape => tmp :: stridesLoop (tmp * n) shape

/-- marray.hxx 6167-6200 `stridesFromShape` for dimension at least 1. In FirstMajorOrder (6178-6187) the same loop goes from the
last entry to the first. -/
def stridesOf (shape : List Nat) : Order → List Nat
  | .lastMajor => stridesLoop 1 shape
  | .firstMajor => (stridesLoop 1 shape.reverse).reverse

/-- marray.hxx 6167-6200 `stridesFromShape`; for dimension 0 it writes to an empty memory block. -/
def stridesFromShape (shape : List Nat) (o : Order) : Option (List Nat) :=
  if shape = [] then none else some (stridesOf shape o)

/-- marray.hxx 5748-5762: data members of Geometry; the dimension is the length of `shape`. -/
structure Geometry where
  shape : List Nat
  shapeStrides : List Nat
  strides : List Nat
  size : Nat
  order : Order
  isSimple : Bool
  deriving DecidableEq

namespace Geometry

/-- marray.hxx 5765-5780: empty geometry. -/
def empty : Geometry := ⟨[], [], [], 0, defaultOrder, true⟩

/-- marray.hxx 5807-5826 for dimension 0, size 1, simple: geometry of a scalar. -/
def scalar (o : Order) : Geometry := ⟨[], [], [], 1, o, true⟩

/-- marray.hxx 5828-5860: unstrided geometry. -/
def dense (shape : List Nat) (external internal : Order) : Geometry :=
  if shape = [] then ⟨[], [], [], 1, internal, true⟩
  else ⟨shape, stridesOf shape internal, stridesOf shape external, shape.foldl (· * ·) 1, internal,
    decide (external = internal)⟩

/-- marray.hxx 6153-6165 `updateSimplicity`. -/
def updateSimplicity (g : Geometry) : Geometry := { g with isSimple := decide (g.shapeStrides = g.strides) }

/-- marray.hxx 5862-5893: geometry with given strides (`strides` has an entry per dimension). -/
def strided (shape strides : List Nat) (internal : Order) : Geometry :=
  if shape = [] then ⟨[], [], [], 1, internal, true⟩
  else updateSimplicity ⟨shape, stridesOf shape internal, strides, shape.foldl (· * ·) 1, internal, true⟩

/-- The loop of `coordinatesToIndex` and `coordinatesToOffset`: `out += *it * stride`. -/
def dotLoop : List Nat → List Nat → Nat → Option Nat
  | [], _, out => some out
  | _ :: _, [], _ => none
  | s :: strides, c :: coord, out => dotLoop strides coord (out + c * s)

/-- marray.hxx 760-777 `coordinatesToIndex`. -/
def coordinatesToIndex (g : Geometry) (coord : List Nat) : Option Nat := dotLoop g.shapeStrides coord 0

/-- marray.hxx 802-820 `coordinatesToOffset`. -/
def coordinatesToOffset (g : Geometry) (coord : List Nat) : Option Nat := dotLoop g.strides coord 0

/-- marray.hxx 842-845, 850-852: division by the shape strides, one after the other. -/
def divLoop : List Nat → Nat → Option (List Nat)
  | [], _ => some []
  | s :: strides, index =>
    if s = 0 then none else (divLoop strides (index % s)).map (fun c => index / s :: c)

/-- marray.hxx 829-862 `indexToCoordinates`. In LastMajorOrder the loop goes from the last dimension to the first; for dimension 0
it starts at dimension `0-1`. -/
def indexToCoordinates (g : Geometry) (index : Nat) : Option (List Nat) :=
  match g.order with
  | .firstMajor => divLoop g.shapeStrides index
  | .lastMajor =>
    if g.shape = [] then none
    else (divLoop g.shapeStrides.reverse index).map List.reverse

/-- marray.hxx 884-887, 895-903: the loop of `indexToOffset`. -/
def offsetLoop : List Nat → List Nat → Nat → Nat → Option Nat
  | [], _, _, out => some out
  | _ :: _, [], _, _ => none
  | s :: shapeStrides, t :: strides, index, out =>
    if s = 0 then none else offsetLoop shapeStrides strides (index % s) (out + t * (index / s))

/-- marray.hxx 869-910 `indexToOffset`. -/
def indexToOffset (g : Geometry) (index : Nat) : Option Nat :=
  if g.isSimple then some index
  else
    match g.order with
    | .firstMajor => offsetLoop g.shapeStrides g.strides index 0
    | .lastMajor => offsetLoop g.shapeStrides.reverse g.strides.reverse index 0

/-- Read the entries `p[0], p[1], ...` of `l`. -/
def gather (l : List Nat) : List Nat → Option (List Nat)
  | [] => some []
  | i :: p =>
    match l[i]?, gather l p with
    | some x, some xs => some (x :: xs)
    | _, _ => none

/-- marray.hxx 2490-2525 `permute`; `p` has an entry per dimension. -/
def permute (g : Geometry) (p : List Nat) : Option Geometry :=
  if p.length ≠ g.shape.length then none
  else
    match gather g.shape p, gather g.strides p with
    | some shape, some strides =>
      (stridesFromShape shape g.order).map (fun ss =>
        updateSimplicity { g with shape := shape, strides := strides, shapeStrides := ss })
    | _, _ => none

/-- Exchange two entries: `c = l[k]; l[k] = l[j]; l[j] = c`. -/
def swapAt (l : List Nat) (j k : Nat) : Option (List Nat) :=
  match l[k]?, l[j]? with
  | some c, some x => (setAt l k x).bind (fun l' => setAt l' j c)
  | _, _ => none

/-- marray.hxx 2555-2587 `transpose(c1, c2)`. -/
def transposeTwo (g : Geometry) (c1 c2 : Nat) : Option Geometry :=
  match swapAt g.shape c1 c2, swapAt g.strides c1 c2 with
  | some shape, some strides =>
    (stridesFromShape shape g.order).map (fun ss =>
      updateSimplicity { g with shape := shape, strides := strides, shapeStrides := ss })
  | _, _ => none

/-- marray.hxx 2598-2610: the loop of `transpose()`: exchange entries `j` and `dimension-j-1` for the `j` listed. -/
def reverseLoop (l : List Nat) : List Nat → Option (List Nat)
  | [] => some l
  | j :: js => (swapAt l j (l.length - j - 1)).bind (fun l' => reverseLoop l' js)

/-- marray.hxx 2594-2617 `transpose()`. -/
def transposeAll (g : Geometry) : Option Geometry :=
  match reverseLoop g.shape (List.range (g.shape.length / 2)), reverseLoop g.strides (List.range (g.shape.length / 2)) with
  | some shape, some strides =>
    (stridesFromShape shape g.order).map (fun ss =>
      updateSimplicity { g with shape := shape, strides := strides, shapeStrides := ss })
  | _, _ => none

/-- marray.hxx 2682-2687: `shift` for `-dimension < n ≤ 0`. -/
def shiftDown (g : Geometry) (n : Int) : Option Geometry :=
  permute g ((List.range g.shape.length).map (fun (j : Nat) => ((j : Int) - n).toNat % g.shape.length))

/-- marray.hxx 2678-2688: `shift` for `-dimension < n < dimension`. -/
def shiftSmall (g : Geometry) (n : Int) : Option Geometry :=
  if n > 0 then shiftDown g (n - g.shape.length) else shiftDown g n

/-- marray.hxx 2664-2690 `shift`. The recursion of the code has depth at most 2; each level is a function of its own here. `%` of C++
truncates; `n % 0` is undefined. -/
def shift (g : Geometry) (n : Int) : Option Geometry :=
  if n ≤ -(g.shape.length : Int) ∨ n ≥ g.shape.length then
    if g.shape.length = 0 then none else shiftSmall g (n.tmod g.shape.length)
  else shiftSmall g n

/-- marray.hxx 2431-2436: keep the entries of `l` whose extent is not 1 (the loop overwrites in place; the write position never
overtakes the read position). -/
def keepNonSingleton : List Nat → List Nat → List Nat
  | n :: shape, x :: l => if n ≠ 1 then x :: keepNonSingleton shape l else keepNonSingleton shape l
  | _, _ => []

/-- marray.hxx 2412-2446 `squeeze`. When all extents are 1, `isSimple` is left as it was. -/
def squeeze (g : Geometry) : Geometry :=
  if g.shape = [] then g
  else
    let newShape := keepNonSingleton g.shape g.shape
    if newShape.length = g.shape.length then g
    else if newShape = [] then { g with shape := [], shapeStrides := [], strides := [], size := 1 }
    else updateSimplicity { g with shape := newShape, strides := keepNonSingleton g.shape g.strides,
                                   shapeStrides := stridesOf newShape g.order }

end Geometry

/-- A view: `data_` as an offset into the memory block it looks at, and the geometry. -/
structure View where
  base : Nat
  geometry : Geometry
  deriving DecidableEq

namespace View

/-- marray.hxx 6477-6490: access by coordinates. -/
def at_ {V : Type} (mem : List V) (v : View) (coord : List Nat) : Option V :=
  (v.geometry.coordinatesToOffset coord).bind (fun o => mem[v.base + o]?)

/-- marray.hxx 6461-6474: access by scalar index. -/
def atIndex {V : Type} (mem : List V) (v : View) (index : Nat) : Option V :=
  (v.geometry.indexToOffset index).bind (fun o => mem[v.base + o]?)

/-- marray.hxx 2007-2022 `view(bit, sit, order, out)`: sub-view. -/
def view (v : View) (start shape : List Nat) (o : Order) : Option View :=
  if shape.length ≠ v.geometry.shape.length then none
  else (v.geometry.coordinatesToOffset start).map (fun off => ⟨v.base + off, .strided shape v.geometry.strides o⟩)

/-- marray.hxx 2262-2283 `reshape` (the view has to be simple). -/
def reshape (v : View) (shape : List Nat) : View := ⟨v.base, .dense shape v.geometry.order v.geometry.order⟩

/-- marray.hxx 2371-2406 `boundView`. -/
def boundView (v : View) (dimension value : Nat) : Option View :=
  if v.geometry.shape.length = 1 then
    (v.geometry.indexToOffset value).map (fun off => ⟨v.base + off, .scalar v.geometry.order⟩)
  else
    match v.geometry.shape[dimension]?, v.geometry.strides[dimension]? with
    | some n, some s =>
      if n = 0 then none
      else
        let shape := v.geometry.shape.eraseIdx dimension
        (stridesFromShape shape v.geometry.order).map (fun ss =>
          ⟨v.base + s * value,
            Geometry.updateSimplicity ⟨shape, ss, v.geometry.strides.eraseIdx dimension, v.geometry.size / n, v.geometry.order, true⟩⟩)
    | _, _ => none

/-- marray.hxx 2412-2446 `squeeze` of a view. -/
def squeeze (v : View) : View := { v with geometry := v.geometry.squeeze }

end View

/-- marray.hxx 467-545: data members of an iterator; `pointer` is relative to the data pointer of the view. -/
structure Iter where
  index : Nat
  pointer : Nat
  coords : List Nat
  deriving DecidableEq

namespace Iter

/-- marray.hxx 4044-4198: constructor with a view and an index. -/
def make (g : Geometry) (index : Nat) : Option Iter :=
  if g.size = 0 then some ⟨index, 0, List.replicate g.shape.length 0⟩
  else if g.isSimple then (g.indexToOffset 0).map (fun p => ⟨index, p + index, List.replicate g.shape.length 0⟩)
  else if index ≥ g.size then
    match g.order, g.shape with
    | .lastMajor, n :: shape => (g.indexToOffset (g.size - 1)).map (fun p => ⟨index, p + 1, n :: shape.map (· - 1)⟩)
    | .firstMajor, n :: shape =>
      (g.indexToOffset (g.size - 1)).map (fun p =>
        ⟨index, p + 1, (n :: shape).dropLast.map (· - 1) ++ [(n :: shape).getLast (by simp)]⟩)
    | _, [] => none
  else
    match g.indexToCoordinates index, g.indexToOffset index with
    | some c, some p => some ⟨index, p, c⟩
    | _, _ => none

/-- marray.hxx 4328-4339: the loop of `operator++` over the dimensions `j`; a pointer that leaves the block to the left is
undefined behaviour. -/
def nextLoop (g : Geometry) : List Nat → Iter → Option Iter
  | [], it => some it
  | j :: js, it =>
    match it.coords[j]?, g.shape[j]?, g.strides[j]? with
    | some c, some n, some s =>
      if c = n - 1 then
        if s * c ≤ it.pointer then
          (setAt it.coords j 0).bind (fun cs => nextLoop g js { it with pointer := it.pointer - s * c, coords := cs })
        else none
      else (setAt it.coords j (c + 1)).map (fun cs => { it with pointer := it.pointer + s, coords := cs })
    | _, _, _ => none

/-- `++c[j]`. -/
def bump (c : List Nat) (j : Nat) : Option (List Nat) :=
  match c[j]? with
  | some x => setAt c j (x + 1)
  | none => none

/-- marray.hxx 4315-4374 `operator++`. For dimension 0 and FirstMajorOrder the loop starts at `0-1`. -/
def next (g : Geometry) (it : Iter) : Option Iter :=
  if it.index < g.size then
    let it := { it with index := it.index + 1 }
    if g.isSimple then some { it with pointer := it.pointer + 1 }
    else if it.index < g.size then
      match g.order with
      | .lastMajor => nextLoop g (List.range it.coords.length) it
      | .firstMajor =>
        if it.coords = [] then none else nextLoop g (List.range it.coords.length).reverse it
    else
      match g.indexToOffset (g.size - 1), g.order with
      | some p, .lastMajor => (bump it.coords 0).map (fun cs => { it with pointer := p + 1, coords := cs })
      | some p, .firstMajor =>
        if g.shape = [] then none
        else (bump it.coords (g.shape.length - 1)).map (fun cs => { it with pointer := p + 1, coords := cs })
      | none, _ => none
  else some it

/-- marray.hxx 4399-4408: the loop of `operator--`. -/
def prevLoop (g : Geometry) : List Nat → Iter → Option Iter
  | [], it => some it
  | j :: js, it =>
    match it.coords[j]?, g.shape[j]?, g.strides[j]? with
    | some c, some n, some s =>
      if c = 0 then
        (setAt it.coords j (n - 1)).bind (fun cs => prevLoop g js { it with pointer := it.pointer + s * (n - 1), coords := cs })
      else if s ≤ it.pointer then
        (setAt it.coords j (c - 1)).map (fun cs => { it with pointer := it.pointer - s, coords := cs })
      else none
    | _, _, _ => none

/-- marray.hxx 4379-4436 `operator--`. The test for the end iterator comes after `--index_`, so that it compares the decremented index
with the size. -/
def prev (g : Geometry) (it : Iter) : Option Iter :=
  if it.index = 0 then none
  else
    let it := { it with index := it.index - 1 }
    if g.isSimple then
      if it.pointer = 0 then none else some { it with pointer := it.pointer - 1 }
    else if it.index = g.size then
      none -- not reached from a valid iterator: its index is at most the size
    else
      match g.order with
      | .lastMajor => prevLoop g (List.range it.coords.length) it
      | .firstMajor =>
        if g.shape = [] then none else prevLoop g (List.range g.shape.length).reverse it

/-- `*it` (marray.hxx 4219-4225). -/
def deref {V : Type} (mem : List V) (base : Nat) (it : Iter) : Option V := mem[base + it.pointer]?

end Iter

/-- Repeat a loop body `n` times. -/
def iter {σ : Type} (body : σ → Option σ) : Nat → σ → Option σ
  | 0, s => some s
  | n + 1, s => (body s).bind (iter body n)

/-- marray.hxx 6272-6313 `OperateHelperBinary` with the functor Assign: nested loops, last dimension outermost. The list has (extent,
stride of the target, stride of the source) per dimension, last dimension first; `p1`, `p2` are the two pointers. -/
def copyNest {V : Type} (src : List V) : List (Nat × Nat × Nat) → Nat → Nat → List V → Option (List V)
  | [], p1, p2, mem =>
    match src[p2]? with
    | some x => setAt mem p1 x
    | none => none
  | (n, s1, s2) :: rest, p1, p2, mem =>
    (iter (fun (st : Nat × Nat × List V) =>
        (copyNest src rest st.1 st.2.1 st.2.2).map (fun mem => (st.1 + s1, st.2.1 + s2, mem))) n (p1, p2, mem)).map
      (fun st => st.2.2)

/-- marray.hxx 6350-6365: `memcpy` of `n` values. -/
def memcpyLoop {V : Type} (src : List V) (q p : Nat) : Nat → List V → Option (List V)
  | 0, mem => some mem
  | n + 1, mem =>
    (memcpyLoop src q p n mem).bind (fun mem =>
      match src[q + n]? with
      | some x => setAt mem (p + n) x
      | none => none)

/-- marray.hxx 6366-6372: copy with two iterators, `n` values. -/
def iterCopy {V : Type} (src : List V) (from_ to : View) : Nat → Iter → Iter → List V → Option (List V)
  | 0, _, _, mem => some mem
  | n + 1, i, j, mem =>
    match i.deref src from_.base with
    | none => none
    | some x =>
      match setAt mem (to.base + j.pointer) x, i.next from_.geometry, j.next to.geometry with
      | some mem, some i, some j => iterCopy src from_ to n i j mem
      | _, _, _ => none

/-- marray.hxx 6316-6374 `AssignmentOperatorHelper<false,...>::execute`: assignment of views on two different memory blocks. The test
for overlap is false for different blocks and left out. -/
def copyView {V : Type} (src : List V) (from_ : View) (mem : List V) (to : View) : Option (List V) :=
  if from_.geometry.order = to.geometry.order ∧ from_.geometry.isSimple ∧ to.geometry.isSimple then
    memcpyLoop src from_.base to.base from_.geometry.size mem
  else if 1 ≤ from_.geometry.shape.length ∧ from_.geometry.shape.length ≤ 10 then
    copyNest src ((to.geometry.shape.zip (to.geometry.strides.zip from_.geometry.strides)).reverse) to.base from_.base mem
  else
    match Iter.make from_.geometry 0, Iter.make to.geometry 0 with
    | some i, some j => iterCopy src from_ to from_.geometry.size i j mem
    | _, _ => none

/-- marray.hxx 547-690: an array: a view with its own memory block; `none` when `data_` is 0. The data pointer is at the start of the
block. -/
structure Arr (V : Type) where
  data : Option (List V)
  geometry : Geometry

namespace Arr

/-- marray.hxx 3365-3374: empty constructor; also the state after `assign()` (3345-3360). -/
def empty {V : Type} : Arr V := ⟨none, .empty⟩

/-- marray.hxx 3388-3402: constructor of a scalar. -/
def scalar {V : Type} (value : V) (o : Order) : Arr V := ⟨some [value], .scalar o⟩

/-- marray.hxx 3520-3541: constructor with shape and initial value. -/
def make {V : Type} (shape : List Nat) (value : V) (o : Order) : Arr V :=
  ⟨some (List.replicate (shape.foldl (· * ·) 1) value), .dense shape o o⟩

/-- The array as a view on its own memory. -/
def view {V : Type} (a : Arr V) : View := ⟨0, a.geometry⟩

/-- Read access by coordinates. -/
def get {V : Type} (a : Arr V) (coord : List Nat) : Option V :=
  match a.data with
  | none => none
  | some mem => a.view.at_ mem coord

/-- Read access by scalar index. -/
def getIndex {V : Type} (a : Arr V) (index : Nat) : Option V :=
  match a.data with
  | none => none
  | some mem => a.view.atIndex mem index

/-- `a(coord) = x`. -/
def set {V : Type} (a : Arr V) (coord : List Nat) (x : V) : Option (Arr V) :=
  match a.data, a.geometry.coordinatesToOffset coord with
  | some mem, some o => (setAt mem o x).map (fun mem => { a with data := some mem })
  | _, _ => none

/-- marray.hxx 3842-3868: copy the old data into the new block. -/
def copyOverlap {V : Type} (a : Arr V) (old : List V) (newShape : List Nat) (newSize : Nat) (newData : List V) : Option (List V) :=
  if newSize = 1 ∨ a.geometry.shape.length = 0 then
    match old[0]? with
    | some x => setAt newData 0 x
    | none => none
  else
    let shape1 := List.zipWith min a.geometry.shape newShape ++ List.replicate (a.geometry.shape.length - newShape.length) 1
    let shape2 := List.zipWith min a.geometry.shape newShape ++ List.replicate (newShape.length - a.geometry.shape.length) 1
    let viewT : View := ⟨0, .dense newShape a.geometry.order a.geometry.order⟩
    match a.view.view (List.replicate a.geometry.shape.length 0) shape1 a.geometry.order,
      viewT.view (List.replicate newShape.length 0) shape2 a.geometry.order with
    | some view1, some view2 => copyView old view1.squeeze newData view2.squeeze
    | _, _ => none

/-- marray.hxx 3818-3873 `resizeHelper<false>`. -/
def resizeHelper {V : Type} (a : Arr V) (newShape : List Nat) (value : V) : Option (Arr V) :=
  let newSize := newShape.foldl (· * ·) 1
  let newData := List.replicate newSize value
  match a.data with
  | none => some ⟨some newData, .dense newShape a.geometry.order a.geometry.order⟩
  | some old =>
    (a.copyOverlap old newShape newSize newData).map (fun d => ⟨some d, .dense newShape a.geometry.order a.geometry.order⟩)

/-- marray.hxx 3885-3905 `resize`; `zero` is `T()`. For an empty shape the array becomes a scalar (in the default order). -/
def resize {V : Type} (zero : V) (a : Arr V) (newShape : List Nat) (value : V) : Option (Arr V) :=
  if newShape = [] then
    if a.geometry.size > 0 then (a.getIndex 0).map (fun x => scalar x defaultOrder)
    else some (scalar zero defaultOrder)
  else a.resizeHelper newShape value

/-- marray.hxx 3457-3466: read `n` values with an iterator. -/
def readLoop {V : Type} (mem : List V) (v : View) : Nat → Iter → Option (List V)
  | 0, _ => some []
  | n + 1, it =>
    match it.deref mem v.base, it.next v.geometry with
    | some x, some it => (readLoop mem v n it).map (fun l => x :: l)
    | _, _ => none

/-- marray.hxx 3431-3470: copy of a view with values of the same type. A simple view is copied with `memcpy`. -/
def ofView {V : Type} (mem : List V) (v : View) : Option (Arr V) :=
  let g : Geometry := { v.geometry with strides := v.geometry.shapeStrides, isSimple := true }
  if v.geometry.size = 0 then some ⟨none, g⟩
  else if v.geometry.isSimple then
    let d := (mem.drop v.base).take v.geometry.size
    if d.length = v.geometry.size then some ⟨some d, g⟩ else none
  else
    match Iter.make v.geometry 0 with
    | some it => (readLoop mem v v.geometry.size it).map (fun d => ⟨some d, g⟩)
    | none => none

end Arr
end Marray
end OpenGM
