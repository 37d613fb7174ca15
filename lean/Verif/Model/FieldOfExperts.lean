import Verif.Model.Basic
import Mathlib.Algebra.Ring.Defs
/-
Model of include/opengm/functions/fieldofexperts.hxx: FoEFunction. Values are elements of a commutative ring; `half` and `log` stand for `0.5` and `std::log`. `l` is the buffer for the labels, which operator() writes although it is const;
calls from several threads are not modelled. Assertions are not checked (NDEBUG); integer types are unbounded.
-/
namespace OpenGM
namespace FoE
variable {R : Type}

/-- fieldofexperts.hxx 40-44 -/
structure Fn (R : Type) where
  experts : List R
  alphas : List R
  numLabels : Nat
  order : Nat
  l : List R

/-- fieldofexperts.hxx 74-84: the default constructor. -/
def empty : Fn R := ⟨[], [], 0, 0, []⟩

/-- fieldofexperts.hxx 117-128; the division by the number of experts is undefined if there are none. -/
def ofVectors [Zero R] (e a : List R) (n : Nat) : Option (Fn R) :=
  if a.length = 0 then none
  else some ⟨e, a, n, e.length / a.length, List.replicate (e.length / a.length) 0⟩

/-- fieldofexperts.hxx 143-146: one of the two loops; reads `n` elements of the range. -/
def readRange (n : Nat) (it : List R) : Option (List R) := if n ≤ it.length then some (it.take n) else none

/-- fieldofexperts.hxx 134-147 -/
def ofIterators [Zero R] (ite ita : List R) (n numVars numExperts : Nat) : Option (Fn R) :=
  match readRange (numVars * numExperts) ite, readRange numExperts ita with
  | some e, some a => some ⟨e, a, n, numVars, List.replicate numVars 0⟩
  | _, _ => none

/-- `v.resize(n)` -/
def resizeTo [Zero R] (n : Nat) (v : List R) : List R := v.take n ++ List.replicate (n - v.length) 0

/-- fieldofexperts.hxx 103-105: the inner loop of setDefault. -/
def setRow (row : List R) (e : Nat) : List Nat → List R → Option (List R)
  | [], ex => some ex
  | i :: is, ex =>
    match row[i]? with
    | none => none
    | some x =>
      match setAt ex (e + i * 3) x with
      | none => none
      | some ex => setRow row e is ex

/-- fieldofexperts.hxx 100-106: the loops of setDefault, for the constants `alpha` and `expert` of the lines 94-99. -/
def setRows (alpha : List R) (expert : List (List R)) : List Nat → List R × List R → Option (List R × List R)
  | [], s => some s
  | e :: es, s =>
    match alpha[e]?, expert[e]? with
    | some a, some row =>
      match setAt s.2 e a, setRow row e (List.range 4) s.1 with
      | some al, some ex => setRows alpha expert es (ex, al)
      | _, _ => none
    | _, _ => none

/-- fieldofexperts.hxx 86-110 -/
def setDefault [Zero R] (alpha : List R) (expert : List (List R)) (f : Fn R) : Option (Fn R) :=
  match setRows alpha expert (List.range 3) (resizeTo (3 * 4) f.experts, resizeTo 3 f.alphas) with
  | none => none
  | some (ex, al) => some ⟨ex, al, 256, 4, resizeTo 4 f.l⟩

/-- fieldofexperts.hxx 158-162: the loop that copies the labels. -/
def fillLabels [NatCast R] (ls : List Nat) : List Nat → List R → Option (List R)
  | [], l => some l
  | j :: js, l =>
    match ls[j]? with
    | none => none
    | some x =>
      match setAt l j (x : R) with
      | none => none
      | some l => fillLabels ls js l

/-- fieldofexperts.hxx 167-169: the inner loop; also returns the position `i`. -/
def dotLoop [Add R] [Mul R] (experts l : List R) : List Nat → R → Nat → Option (R × Nat)
  | [], dot, i => some (dot, i)
  | j :: js, dot, i =>
    match experts[i]?, l[j]? with
    | some x, some y => dotLoop experts l js (dot + x * y) (i + 1)
    | _, _ => none

/-- fieldofexperts.hxx 165-171: the outer loop. -/
def valLoop [Zero R] [One R] [Add R] [Mul R] (half : R) (log : R → R) (f : Fn R) (l : List R) : List Nat → R → Nat → Option R
  | [], val, _ => some val
  | e :: es, val, i =>
    match dotLoop f.experts l (List.range f.order) 0 i with
    | none => none
    | some (dot, i) =>
      match f.alphas[e]? with
      | none => none
      | some a => valLoop half log f l es (val + a * log (1 + half * dot * dot)) i

/-- fieldofexperts.hxx 150-173: operator(); also returns the object with the changed buffer. -/
def eval [Zero R] [One R] [Add R] [Mul R] [NatCast R] (half : R) (log : R → R) (f : Fn R) (ls : List Nat) : Option (R × Fn R) :=
  match fillLabels ls (List.range f.order) f.l with
  | none => none
  | some l =>
    match valLoop half log f l (List.range f.alphas.length) 0 0 with
    | none => none
    | some v => some (v, { f with l := l })

/-- fieldofexperts.hxx 195-196: the loop of size. -/
def sizeLoop (n : Nat) : Nat → Nat → Nat
  | 0, s => s
  | k + 1, s => sizeLoop n k (s * n)

/-- fieldofexperts.hxx 175-198: dimension, shape (the same for all variables) and size. -/
def info (f : Fn R) : Nat × Nat × Nat := (f.order, f.numLabels, sizeLoop f.numLabels f.order 1)

/-- fieldofexperts.hxx 200-216 -/
def sizes (f : Fn R) : Nat × Nat := (3, f.experts.length + f.alphas.length)

/-- fieldofexperts.hxx 218-242 -/
def serialize (f : Fn R) : List Nat × List R := ([f.alphas.length, f.order, f.numLabels], f.experts ++ f.alphas)

/-- fieldofexperts.hxx 244-272 -/
def deserialize [Zero R] (is : List Nat) (vs : List R) : Option (Fn R) :=
  match is[0]?, is[1]?, is[2]? with
  | some m, some k, some n =>
    match readRange (m * k) vs with
    | none => none
    | some experts =>
      match readRange m (vs.drop (m * k)) with
      | none => none
      | some alphas => ofVectors experts alphas n
  | _, _, _ => none

end FoE
end OpenGM
