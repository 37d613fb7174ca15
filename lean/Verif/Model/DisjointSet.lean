import Verif.Model.Basic
/-
Model of include/opengm/utilities/disjoint-set.hxx (class disjoint_set). The element type is `Nat`. `none` is undefined behaviour (an element out of range) or a
search that does not end. Copying (two objects then share the array) is not modelled.
-/
namespace OpenGM.DisjointSet

/-- disjoint-set.hxx 17-21 `elem`. -/
structure Elem where
  rank : Nat
  p : Nat
  size : Nat

/-- disjoint-set.hxx 33-35: data members. -/
structure DSet where
  elements : List Elem
  numberOfElements : Nat
  numberOfSets : Nat

/-- disjoint-set.hxx 46-57: constructor. -/
def construct (numberOfElements : Nat) : DSet := ⟨(List.range numberOfElements).map (fun i => ⟨0, i, 1⟩), numberOfElements, numberOfElements⟩

/-- disjoint-set.hxx 61-64: `while(y != elements_[y].p)`, at most `fuel` tests. -/
def findRoot (elements : List Elem) : Nat → Nat → Option Nat
  | 0, _ => none
  | fuel + 1, y =>
    match elements[y]? with
    | none => none
    | some e => if y ≠ e.p then findRoot elements fuel e.p else some y

/-- disjoint-set.hxx 59-67 `find`: only the parent of `x` itself is changed. At most as many tests as there are elements are modelled (more are never needed, which is proved). -/
def find (d : DSet) (x : Nat) : Option (Nat × DSet) :=
  match findRoot d.elements d.elements.length x with
  | none => none
  | some y =>
    match d.elements[x]? with
    | none => none
    | some e => some (y, { d with elements := d.elements.set x { e with p := y } })

/-- disjoint-set.hxx 69-93 `join`. -/
def join (d : DSet) (x y : Nat) : Option DSet :=
  match find d x with
  | none => none
  | some (x, d) =>
    match find d y with
    | none => none
    | some (y, d) =>
      if x ≠ y then
        match d.elements[x]?, d.elements[y]? with
        | some ex, some ey =>
          if ex.rank > ey.rank then
            some { d with elements := (d.elements.set y { ey with p := x }).set x { ex with size := ex.size + ey.size }, numberOfSets := d.numberOfSets - 1 }
          else
            let ey' := { ey with size := ey.size + ex.size }
            let ey' := if ex.rank = ey'.rank then { ey' with rank := ey'.rank + 1 } else ey'
            some { d with elements := (d.elements.set x { ex with p := y }).set y ey', numberOfSets := d.numberOfSets - 1 }
        | _, _ => none
      else some d

/-- disjoint-set.hxx 39-43 `size`. -/
def size (d : DSet) (i : Nat) : Option (Nat × DSet) :=
  match find d i with
  | none => none
  | some (i, d) =>
    match d.elements[i]? with
    | none => none
    | some e => some (e.size, d)

/-- disjoint-set.hxx 104-110: the loop of `representativeLabeling` over the elements `is` still to do; the map as a list of keys and values in the order of insertion. -/
def labelLoop : List Nat → Nat → DSet → Option (List (Nat × Nat) × DSet)
  | [], _, d => some ([], d)
  | i :: is, n, d =>
    match find d i with
    | none => none
    | some (x, d) =>
      if i = x then
        match labelLoop is (n + 1) d with
        | none => none
        | some (l, d) => some ((i, n) :: l, d)
      else labelLoop is n d

/-- disjoint-set.hxx 100-111 `representativeLabeling`. -/
def representativeLabeling (d : DSet) : Option (List (Nat × Nat) × DSet) := labelLoop (List.range d.numberOfElements) 0 d

end OpenGM.DisjointSet
