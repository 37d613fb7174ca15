import Verif.Model.Basic
import Verif.Spec.SingleSite
/-
Model of include/opengm/functions/singlesitefunction.hxx: StaticSingleSiteFunction (StackStorage and HeapStorage behave alike), DynamicSingleSiteFunction and their serialization, for a type `T` of values whose elements have no
value after `new T[n]` (built-in numbers). An element without value is `none`; reading it is undefined behaviour, copying it with the whole array is not reported. Blocks are never shared: each object has its own. Reading a pointer
that was never set without using it (`std::copy` of an empty range) is not reported. Assertions are not checked (NDEBUG).
-/
namespace OpenGM
namespace SingleSite
variable {V : Type}

/-- singlesitefunction.hxx 137-279: members of DynamicSingleSiteFunction. `data` is `none` when the pointer is not set or its block was deleted. -/
structure Dyn (V : Type) where
  data : Option (List (Option V))
  size : Nat

/-- singlesitefunction.hxx 143-149 -/
def make (n : Nat) : Dyn V := if n ≠ 0 then ⟨some (List.replicate n none), n⟩ else ⟨none, n⟩

/-- singlesitefunction.hxx 151-158 -/
def makeFill (n : Nat) (v : V) : Dyn V := if n ≠ 0 then ⟨some (List.replicate n (some v)), n⟩ else ⟨none, n⟩

/-- `delete[] dataPointer_`: undefined unless the pointer has a block. -/
def free (f : Dyn V) : Option (Dyn V) :=
  match f.data with
  | none => none
  | some _ => some ⟨none, f.size⟩

/-- `std::copy(other.dataPointer_, other.dataPointer_ + n, dataPointer_)`. -/
def copyData (n : Nat) (src dst : Option (List (Option V))) : Option (Option (List (Option V))) :=
  if n = 0 then some dst
  else match src, dst with
    | some s, some d => if n ≤ s.length ∧ n ≤ d.length then some (some (s.take n ++ d.drop n)) else none
    | _, _ => none

/-- singlesitefunction.hxx 160-165: the destructor. -/
def destroy (f : Dyn V) : Option (Dyn V) := if f.size ≠ 0 then free f else some f

/-- singlesitefunction.hxx 167-177: the copy constructor. -/
def copyOf (other : Dyn V) : Option (Dyn V) :=
  if other.size ≠ 0 then
    match copyData other.size other.data (some (List.replicate other.size none)) with
    | none => none
    | some d => some ⟨d, other.size⟩
  else some ⟨none, 0⟩

/-- singlesitefunction.hxx 182-198: the first part of operator=, for another object. -/
def assignSize (f other : Dyn V) : Option (Dyn V) :=
  if other.size > f.size then
    match free f with
    | none => none
    | some _ =>
      match copyData other.size other.data (some (List.replicate other.size none)) with
      | none => none
      | some d => some ⟨d, other.size⟩
  else if other.size < f.size then
    match free f with
    | none => none
    | some g =>
      if other.size ≠ 0 then
        match copyData other.size other.data (some (List.replicate other.size none)) with
        | none => none
        | some d => some ⟨d, other.size⟩
      else some ⟨g.data, 0⟩
  else some f

/-- singlesitefunction.hxx 179-204: operator=, for another object. -/
def assignFrom (f other : Dyn V) : Option (Dyn V) :=
  match assignSize f other with
  | none => none
  | some g =>
    if other.size = g.size then
      match copyData g.size other.data g.data with
      | none => none
      | some d => some ⟨d, g.size⟩
    else some g

/-- singlesitefunction.hxx 206-218 `assign(size)` -/
def resize (f : Dyn V) (n : Nat) : Option (Dyn V) :=
  if f.size ≠ n then
    match free f with
    | none => none
    | some g => if n ≠ 0 then some ⟨some (List.replicate n none), n⟩ else some ⟨g.data, 0⟩
  else some f

/-- singlesitefunction.hxx 220-236 `assign(size, value)` -/
def resizeFill (f : Dyn V) (n : Nat) (v : V) : Option (Dyn V) :=
  if f.size ≠ n then
    match free f with
    | none => none
    | some g => if n ≠ 0 then some ⟨some (List.replicate n (some v)), n⟩ else some ⟨g.data, 0⟩
  else if f.size = 0 then some f
  else match f.data with
    | none => none
    | some d => if f.size ≤ d.length then some ⟨some (List.replicate f.size (some v) ++ d.drop f.size), f.size⟩ else none

/-- singlesitefunction.hxx 256-267: operator[] and operator() const. -/
def read (f : Dyn V) (k : Nat) : Option V :=
  match f.data with
  | none => none
  | some d =>
    match d[k]? with
    | some (some v) => some v
    | _ => none

/-- singlesitefunction.hxx 250-254 and 269-274: operator[] and operator(), followed by a write. -/
def write (f : Dyn V) (k : Nat) (v : V) : Option (Dyn V) :=
  match f.data with
  | none => none
  | some d => (setAt d k (some v)).map (fun d => ⟨some d, f.size⟩)

/-- singlesitefunction.hxx 238-248: size, dimension, shape. -/
def info (f : Dyn V) : Nat × Nat × Nat := (f.size, 1, f.size)

/-- singlesitefunction.hxx 343-347: the loop of serialize. -/
def readAll (f : Dyn V) : List Nat → Option (List V)
  | [] => some []
  | k :: ks =>
    match read f k, readAll f ks with
    | some v, some vs => some (v :: vs)
    | _, _ => none

/-- singlesitefunction.hxx 333-338: indexSequenceSize and valueSequenceSize. -/
def sizes (f : Dyn V) : Nat × Nat := (1, f.size)

/-- singlesitefunction.hxx 341-349: serialize into the two sequences `is` and `vs`, which the caller has allocated; the index sequence is not written. -/
def serialize (f : Dyn V) (is : List Nat) (vs : List V) : Option (List Nat × List V) :=
  match readAll f (List.range f.size) with
  | none => none
  | some ws => if ws.length ≤ vs.length then some (is, ws ++ vs.drop ws.length) else none

/-- singlesitefunction.hxx 354-358: the loop of deserialize. -/
def writeAll (vs : List V) : List Nat → Dyn V → Option (Dyn V)
  | [], f => some f
  | k :: ks, f =>
    match vs[k]? with
    | none => none
    | some v =>
      match write f k v with
      | none => none
      | some f => writeAll vs ks f

/-- singlesitefunction.hxx 350-359 deserialize into the object `f` -/
def deserialize (is : List Nat) (vs : List V) (f : Dyn V) : Option (Dyn V) :=
  match is[0]? with
  | none => none
  | some n =>
    match resize f n with
    | none => none
    | some f => writeAll vs (List.range n) f

/-- A step of a program that works with the objects `w`; `a = a` is the test `this != &other` of line 181. -/
def step (w : List (Dyn V)) : Spec.ArrayOp V → Option (List (Dyn V))
  | .make n => some (w ++ [make n])
  | .makeFill n v => some (w ++ [makeFill n v])
  | .copy i => match w[i]? with
    | some f => (copyOf f).map (fun g => w ++ [g])
    | none => none
  | .assign i j =>
    if i = j then some w
    else match w[i]?, w[j]? with
      | some f, some g => (assignFrom f g).map (fun h => w.set i h)
      | _, _ => none
  | .resize i n => match w[i]? with
    | some f => (resize f n).map (fun h => w.set i h)
    | none => none
  | .resizeFill i n v => match w[i]? with
    | some f => (resizeFill f n v).map (fun h => w.set i h)
    | none => none
  | .write i k v => match w[i]? with
    | some f => (write f k v).map (fun h => w.set i h)
    | none => none

/-- A program: its operations in turn. -/
def run : List (Spec.ArrayOp V) → List (Dyn V) → Option (List (Dyn V))
  | [], w => some w
  | o :: os, w =>
    match step w o with
    | none => none
    | some w => run os w

/-- The destructors of all objects at the end of a program. -/
def destroyAll : List (Dyn V) → Option Unit
  | [] => some ()
  | f :: fs =>
    match destroy f with
    | none => none
    | some _ => destroyAll fs

/-! ### StaticSingleSiteFunction -/

/-- singlesitefunction.hxx 90 (and 20, 48-50): the default constructor of a function with SIZE = `n`. -/
def smake (n : Nat) : List (Option V) := List.replicate n none

/-- singlesitefunction.hxx 91-98 and 99-108: the loops of the copy constructor and of operator=. -/
def scopyLoop (src : List (Option V)) : List Nat → List (Option V) → Option (List (Option V))
  | [], dst => some dst
  | i :: is, dst =>
    match src[i]? with
    | none => none
    | some v =>
      match setAt dst i v with
      | none => none
      | some dst => scopyLoop src is dst

/-- singlesitefunction.hxx 91-98 -/
def scopy (n : Nat) (src : List (Option V)) : Option (List (Option V)) := scopyLoop src (List.range n) (smake n)

/-- singlesitefunction.hxx 99-108, for another object -/
def sassign (n : Nat) (dst src : List (Option V)) : Option (List (Option V)) := scopyLoop src (List.range n) dst

/-- singlesitefunction.hxx 109-113 -/
def sread (f : List (Option V)) (k : Nat) : Option V :=
  match f[k]? with
  | some (some v) => some v
  | _ => none

/-- singlesitefunction.hxx 115-119, followed by a write -/
def swrite (f : List (Option V)) (k : Nat) (v : V) : Option (List (Option V)) := setAt f k (some v)

/-- singlesitefunction.hxx 308-316: serialize; the values that are written. -/
def sserialize (f : List (Option V)) : List Nat → Option (List V)
  | [] => some []
  | k :: ks =>
    match sread f k, sserialize f ks with
    | some v, some vs => some (v :: vs)
    | _, _ => none

/-- singlesitefunction.hxx 317-325: deserialize -/
def sdeserialize (vs : List V) : List Nat → List (Option V) → Option (List (Option V))
  | [], f => some f
  | k :: ks, f =>
    match vs[k]? with
    | none => none
    | some v =>
      match swrite f k v with
      | none => none
      | some f => sdeserialize vs ks f

end SingleSite
end OpenGM
