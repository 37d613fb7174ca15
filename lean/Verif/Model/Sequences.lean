import Verif.Spec.Sequences
/-
Models of include/opengm/datastructures/fast_sequence.hxx (FastSequence) and buffer_vector.hxx (BufferVector) with explicit memory.

The heap is a list of blocks; a block is a list of cells, a cell `none` has not been written. Freed blocks are `none`. `delete[]` of
anything but a live block, and reads and writes outside of a live block, are undefined behaviour: the result `none`. The copy of a cell
that has not been written is again such a cell. `new` does not fail. Assertions (OPENGM_ASSERT) are compiled out.
-/
namespace OpenGM
namespace Sequences
open Spec (SeqOp)

variable {V : Type}

abbrev Block (V : Type) := List (Option V)
abbrev Heap (V : Type) := List (Option (Block V))

/-- A pointer to an array: the array inside of the object itself, a heap block, NULL, or never initialised. -/
inductive Ptr where
  | stack
  | heap (a : Nat)
  | null
  | wild
  deriving DecidableEq

/-- `new T[n]` followed by `std::copy` of `vals` to it. -/
def alloc (h : Heap V) (n : Nat) (vals : Block V) : Option (Heap V × Nat) :=
  if vals.length ≤ n then some (h ++ [some (vals ++ List.replicate (n - vals.length) none)], h.length) else none

/-- `delete[] p` -/
def delete (h : Heap V) : Ptr → Option (Heap V)
  | .heap a =>
    match h[a]? with
    | some (some _) => some (h.set a none)
    | _ => none
  | .null => some h
  | _ => none

/-- The array that `p` points to; `stack` is the array inside of the object. -/
def cells (h : Heap V) (stack : Block V) : Ptr → Option (Block V)
  | .stack => some stack
  | .heap a =>
    match h[a]? with
    | some (some b) => some b
    | _ => none
  | _ => none

/-- Read the first `n` entries (`std::copy` from `p, p + n`); nothing is read if `n = 0`. -/
def readFirst (h : Heap V) (stack : Block V) (p : Ptr) (n : Nat) : Option (Block V) :=
  if n = 0 then some []
  else
    match cells h stack p with
    | none => none
    | some b => if n ≤ b.length then some (b.take n) else none

/-- Write `vals` to the beginning of the array (`std::copy` to `p`); the heap and the array inside of the object afterwards. -/
def writeFirst (h : Heap V) (stack : Block V) (p : Ptr) (vals : Block V) : Option (Heap V × Block V) :=
  if vals.length = 0 then some (h, stack)
  else
    match p with
    | .stack => if vals.length ≤ stack.length then some (h, vals ++ stack.drop vals.length) else none
    | .heap a =>
      match h[a]? with
      | some (some b) => if vals.length ≤ b.length then some (h.set a (some (vals ++ b.drop vals.length)), stack) else none
      | _ => none
    | _ => none

/-- `p[k] = x` -/
def writeAt (h : Heap V) (stack : Block V) (p : Ptr) (k : Nat) (x : Option V) : Option (Heap V × Block V) :=
  match p with
  | .stack => if k < stack.length then some (h, stack.set k x) else none
  | .heap a =>
    match h[a]? with
    | some (some b) => if k < b.length then some (h.set a (some (b.set k x)), stack) else none
    | _ => none
  | _ => none

/-- `p[k]` as a value -/
def readAt (h : Heap V) (stack : Block V) (p : Ptr) (k : Nat) : Option (Option V) :=
  match cells h stack p with
  | none => none
  | some b => b[k]?

/-! ### FastSequence -/

/-- fast_sequence.hxx 55-58: data members. -/
structure FS (V : Type) where
  size : Nat
  capacity : Nat
  stack : Block V
  ptr : Ptr

namespace FS

/-- fast_sequence.hxx 64-69: default constructor. -/
def new (max : Nat) : FS V := ⟨0, max, List.replicate max none, .stack⟩

/-- fast_sequence.hxx 74-88: constructor from a size. -/
def newSize (max : Nat) (h : Heap V) (n : Nat) : Option (Heap V × FS V) :=
  let capacity := if max < n then n else max
  if max < n then
    match alloc h n [] with
    | none => none
    | some (h', a) => some (h', ⟨n, capacity, List.replicate max none, .heap a⟩)
  else some (h, ⟨n, capacity, List.replicate max none, .stack⟩)

/-- fast_sequence.hxx 94-110: constructor from a size and a value. -/
def newFill (max : Nat) (h : Heap V) (n : Nat) (v : V) : Option (Heap V × FS V) :=
  match newSize max h n with
  | none => none
  | some (h', s) =>
    match writeFirst h' s.stack s.ptr (List.replicate n (some v)) with
    | none => none
    | some (h'', stack) => some (h'', { s with stack := stack })

/-- fast_sequence.hxx 115-131: copy constructor. The capacity is that of the other sequence. -/
def copy (max : Nat) (h : Heap V) (other : FS V) : Option (Heap V × FS V) :=
  match readFirst h other.stack other.ptr other.size with
  | none => none
  | some vals =>
    if max < other.size then
      match alloc h other.size vals with
      | none => none
      | some (h', a) => some (h', ⟨other.size, other.capacity, List.replicate max none, .heap a⟩)
    else
      match writeFirst h (List.replicate max none) .stack vals with
      | none => none
      | some (h', stack) => some (h', ⟨other.size, other.capacity, stack, .stack⟩)

/-- fast_sequence.hxx 135-140: destructor. -/
def destroy (max : Nat) (h : Heap V) (s : FS V) : Option (Heap V) :=
  if max < s.capacity then delete h s.ptr else some h

/-- fast_sequence.hxx 145-175: assignment of another sequence. -/
def assign (max : Nat) (h : Heap V) (s other : FS V) : Option (Heap V × FS V) :=
  if max < other.size then
    match (if max < s.size then delete h s.ptr else some h) with
    | none => none
    | some h1 =>
      match readFirst h1 other.stack other.ptr other.size with
      | none => none
      | some vals =>
        match alloc h1 other.size vals with
        | none => none
        | some (h2, a) => some (h2, ⟨other.size, other.size, s.stack, .heap a⟩)
  else
    match readFirst h other.stack other.ptr other.size with
    | none => none
    | some vals =>
      match writeFirst h s.stack .stack vals with
      | none => none
      | some (h1, stack) => some (h1, ⟨other.size, s.capacity, stack, .stack⟩)

/-- fast_sequence.hxx 250-257, 275-282, 299-306: a new array of `n` entries, with the old entries. -/
def grow (max : Nat) (h : Heap V) (s : FS V) (n : Nat) : Option (Heap V × FS V) :=
  match readFirst h s.stack s.ptr s.size with
  | none => none
  | some vals =>
    match alloc h n vals with
    | none => none
    | some (h1, a) =>
      match (if max < s.capacity then delete h1 s.ptr else some h1) with
      | none => none
      | some h2 => some (h2, ⟨s.size, n, s.stack, .heap a⟩)

/-- fast_sequence.hxx 244-263 `push_back` of a value that is stored elsewhere. -/
def push (max : Nat) (h : Heap V) (s : FS V) (v : V) : Option (Heap V × FS V) :=
  match (if s.capacity = s.size then grow max h s (s.capacity * 2) else some (h, s)) with
  | none => none
  | some (h1, s1) =>
    match writeAt h1 s1.stack s1.ptr s1.size (some v) with
    | none => none
    | some (h2, stack) => some (h2, ⟨s1.size + 1, s1.capacity, stack, s1.ptr⟩)

/-- fast_sequence.hxx 244-263 `push_back` of a reference to entry `k` of the same sequence: the value is read after the old array has
been freed. -/
def pushOwn (max : Nat) (h : Heap V) (s : FS V) (k : Nat) : Option (Heap V × FS V) :=
  match (if s.capacity = s.size then grow max h s (s.capacity * 2) else some (h, s)) with
  | none => none
  | some (h1, s1) =>
    match readAt h1 s1.stack s.ptr k with
    | none => none
    | some x =>
      match writeAt h1 s1.stack s1.ptr s1.size x with
      | none => none
      | some (h2, stack) => some (h2, ⟨s1.size + 1, s1.capacity, stack, s1.ptr⟩)

/-- fast_sequence.hxx 269-287 `resize` -/
def resize (max : Nat) (h : Heap V) (s : FS V) (n : Nat) : Option (Heap V × FS V) :=
  match (if s.capacity < n then grow max h s n else some (h, s)) with
  | none => none
  | some (h1, s1) => some (h1, ⟨n, s1.capacity, s1.stack, s1.ptr⟩)

/-- fast_sequence.hxx 293-311 `reserve` -/
def reserve (max : Nat) (h : Heap V) (s : FS V) (n : Nat) : Option (Heap V × FS V) :=
  if s.capacity < n then grow max h s n else some (h, s)

/-- fast_sequence.hxx 316-327 `clear` -/
def clear (max : Nat) (h : Heap V) (s : FS V) : Option (Heap V × FS V) :=
  match (if max < s.capacity then delete h s.ptr else some h) with
  | none => none
  | some h1 => some (h1, ⟨0, max, s.stack, .stack⟩)

/-- fast_sequence.hxx 342-345 `assign` of values stored elsewhere. -/
def assignRange (max : Nat) (h : Heap V) (s : FS V) (vs : List V) : Option (Heap V × FS V) :=
  match resize max h s vs.length with
  | none => none
  | some (h1, s1) =>
    match writeFirst h1 s1.stack s1.ptr (vs.map some) with
    | none => none
    | some (h2, stack) => some (h2, { s1 with stack := stack })

/-- fast_sequence.hxx 231-238 `operator[]` and an assignment to the reference. -/
def set (h : Heap V) (s : FS V) (k : Nat) (v : V) : Option (Heap V × FS V) :=
  match writeAt h s.stack s.ptr k (some v) with
  | none => none
  | some (h1, stack) => some (h1, { s with stack := stack })

/-- fast_sequence.hxx 219-227 `operator[]`, 349-373 `front`, `back` -/
def get (h : Heap V) (s : FS V) (k : Nat) : Option (Option V) := readAt h s.stack s.ptr k

end FS

/-! ### BufferVector -/

/-- buffer_vector.hxx 55-57: data members. -/
structure BV where
  size : Nat
  capacity : Nat
  ptr : Ptr

namespace BV

/-- buffer_vector.hxx 62-66: default constructor. -/
def new : BV := ⟨0, 0, .null⟩

/-- buffer_vector.hxx 71-80: constructor from a size; `data_` is not initialised if the size is 0. -/
def newSize (h : Heap V) (n : Nat) : Option (Heap V × BV) :=
  if n ≠ 0 then
    match alloc h n [] with
    | none => none
    | some (h', a) => some (h', ⟨n, n, .heap a⟩)
  else some (h, ⟨0, 0, .wild⟩)

/-- buffer_vector.hxx 86-95: constructor from a size and a value; allocates also if the size is 0. -/
def newFill (h : Heap V) (n : Nat) (v : V) : Option (Heap V × BV) :=
  match alloc h n (List.replicate n (some v)) with
  | none => none
  | some (h', a) => some (h', ⟨n, n, .heap a⟩)

/-- buffer_vector.hxx 101-112: copy constructor; `data_` is not initialised if the size is 0. -/
def copy (h : Heap V) (other : BV) : Option (Heap V × BV) :=
  if other.size ≠ 0 then
    match readFirst h [] other.ptr other.size with
    | none => none
    | some vals =>
      match alloc h other.size vals with
      | none => none
      | some (h', a) => some (h', ⟨other.size, other.size, .heap a⟩)
  else some (h, ⟨0, 0, .wild⟩)

/-- buffer_vector.hxx 130-135: destructor. -/
def destroy (h : Heap V) (s : BV) : Option (Heap V) :=
  if s.capacity ≠ 0 then delete h s.ptr else some h

/-- buffer_vector.hxx 139-154: assignment of another vector. -/
def assign (h : Heap V) (s other : BV) : Option (Heap V × BV) :=
  if s.capacity < other.size then
    match delete h s.ptr with
    | none => none
    | some h1 =>
      match readFirst h1 [] other.ptr other.size with
      | none => none
      | some vals =>
        match alloc h1 other.size vals with
        | none => none
        | some (h2, a) => some (h2, ⟨other.size, other.size, .heap a⟩)
  else
    match readFirst h [] other.ptr other.size with
    | none => none
    | some vals =>
      match writeFirst h [] s.ptr vals with
      | none => none
      | some (h1, _) => some (h1, ⟨other.size, s.capacity, s.ptr⟩)

/-- buffer_vector.hxx 231-234, 259-262, 285-288: a new array of `n` entries with the old entries. -/
def grow (h : Heap V) (s : BV) (n : Nat) : Option (Heap V × BV) :=
  match readFirst h [] s.ptr s.size with
  | none => none
  | some vals =>
    match alloc h n vals with
    | none => none
    | some (h1, a) =>
      match delete h1 s.ptr with
      | none => none
      | some h2 => some (h2, ⟨s.size, n, .heap a⟩)

/-- `data_ = new T[n]`, without freeing. -/
def fresh (h : Heap V) (s : BV) (n : Nat) : Option (Heap V × BV) :=
  match alloc h n [] with
  | none => none
  | some (h1, a) => some (h1, ⟨s.size, n, .heap a⟩)

/-- buffer_vector.hxx 229-243: room for one more entry. -/
def room (h : Heap V) (s : BV) : Option (Heap V × BV) :=
  if s.capacity = s.size then (if s.size ≠ 0 then grow h s (s.capacity * 2) else fresh h s 2) else some (h, s)

/-- buffer_vector.hxx 225-247 `push_back` of a value that is stored elsewhere. -/
def push (h : Heap V) (s : BV) (v : V) : Option (Heap V × BV) :=
  match room h s with
  | none => none
  | some (h1, s1) =>
    match writeAt h1 [] s1.ptr s1.size (some v) with
    | none => none
    | some (h2, _) => some (h2, ⟨s1.size + 1, s1.capacity, s1.ptr⟩)

/-- buffer_vector.hxx 225-247 `push_back` of a reference to entry `k` of the same vector. -/
def pushOwn (h : Heap V) (s : BV) (k : Nat) : Option (Heap V × BV) :=
  match room h s with
  | none => none
  | some (h1, s1) =>
    match readAt h1 [] s.ptr k with
    | none => none
    | some x =>
      match writeAt h1 [] s1.ptr s1.size x with
      | none => none
      | some (h2, _) => some (h2, ⟨s1.size + 1, s1.capacity, s1.ptr⟩)

/-- buffer_vector.hxx 253-273 `resize` -/
def resize (h : Heap V) (s : BV) (n : Nat) : Option (Heap V × BV) :=
  match (if s.capacity < n then (if s.size ≠ 0 then grow h s n else fresh h s n) else some (h, s)) with
  | none => none
  | some (h1, s1) => some (h1, ⟨n, s1.capacity, s1.ptr⟩)

/-- buffer_vector.hxx 279-299 `reserve`: sets the size, too. -/
def reserve (h : Heap V) (s : BV) (n : Nat) : Option (Heap V × BV) :=
  if s.capacity < n then
    match (if s.size ≠ 0 then grow h s n else fresh h s n) with
    | none => none
    | some (h1, s1) => some (h1, ⟨n, s1.capacity, s1.ptr⟩)
  else some (h, s)

/-- buffer_vector.hxx 306-309 `clear` -/
def clear (h : Heap V) (s : BV) : Option (Heap V × BV) := some (h, ⟨0, s.capacity, s.ptr⟩)

/-- buffer_vector.hxx 324-327 `assign` of values stored elsewhere. -/
def assignRange (h : Heap V) (s : BV) (vs : List V) : Option (Heap V × BV) :=
  match resize h s vs.length with
  | none => none
  | some (h1, s1) =>
    match writeFirst h1 [] s1.ptr (vs.map some) with
    | none => none
    | some (h2, _) => some (h2, s1)

/-- buffer_vector.hxx 213-219 `operator[]` and an assignment to the reference. -/
def set (h : Heap V) (s : BV) (k : Nat) (v : V) : Option (Heap V × BV) :=
  match writeAt h [] s.ptr k (some v) with
  | none => none
  | some (h1, _) => some (h1, s)

/-- buffer_vector.hxx 200-208 `operator[]`, 332-356 `front`, `back` -/
def get (h : Heap V) (s : BV) (k : Nat) : Option (Option V) := readAt h [] s.ptr k

end BV

/-! ### Histories -/

/-- The memory and all objects; `none` for an object that has been destroyed. -/
structure World (V S : Type) where
  heap : Heap V
  objs : List (Option S)

/-- A call on object `i`. -/
def World.modify {S : Type} (w : World V S) (i : Nat) (f : Heap V → S → Option (Heap V × S)) : Option (World V S) :=
  match w.objs[i]? with
  | some (some s) =>
    match f w.heap s with
    | some (h, s') => some ⟨h, w.objs.set i (some s')⟩
    | none => none
  | _ => none

/-- The construction of a new object. -/
def World.add {S : Type} (w : World V S) (r : Option (Heap V × S)) : Option (World V S) :=
  match r with
  | none => none
  | some (h, s) => some ⟨h, w.objs ++ [some s]⟩

/-- A call on a FastSequence with MAX_STACK = `max`. Assignment of an object to itself does nothing (line 149). -/
def FS.step (max : Nat) (w : World V (FS V)) : SeqOp V → Option (World V (FS V))
  | .new => w.add (some (w.heap, FS.new max))
  | .newSize n => w.add (FS.newSize max w.heap n)
  | .newFill n v => w.add (FS.newFill max w.heap n v)
  | .copy i =>
    match w.objs[i]? with
    | some (some s) => w.add (FS.copy max w.heap s)
    | _ => none
  | .destroy i =>
    match w.objs[i]? with
    | some (some s) =>
      match FS.destroy max w.heap s with
      | some h => some ⟨h, w.objs.set i none⟩
      | none => none
    | _ => none
  | .assign i j =>
    if i = j then some w
    else
      match w.objs[j]? with
      | some (some o) => w.modify i (fun h s => FS.assign max h s o)
      | _ => none
  | .push i v => w.modify i (fun h s => FS.push max h s v)
  | .pushOwn i k => w.modify i (fun h s => FS.pushOwn max h s k)
  | .resize i n => w.modify i (fun h s => FS.resize max h s n)
  | .reserve i n => w.modify i (fun h s => FS.reserve max h s n)
  | .clear i => w.modify i (fun h s => FS.clear max h s)
  | .assignRange i vs => w.modify i (fun h s => FS.assignRange max h s vs)
  | .set i k v => w.modify i (fun h s => FS.set h s k v)

/-- A call on a BufferVector (assignment to itself: line 144). -/
def BV.step (w : World V BV) : SeqOp V → Option (World V BV)
  | .new => w.add (some (w.heap, BV.new))
  | .newSize n => w.add (BV.newSize w.heap n)
  | .newFill n v => w.add (BV.newFill w.heap n v)
  | .copy i =>
    match w.objs[i]? with
    | some (some s) => w.add (BV.copy w.heap s)
    | _ => none
  | .destroy i =>
    match w.objs[i]? with
    | some (some s) =>
      match BV.destroy w.heap s with
      | some h => some ⟨h, w.objs.set i none⟩
      | none => none
    | _ => none
  | .assign i j =>
    if i = j then some w
    else
      match w.objs[j]? with
      | some (some o) => w.modify i (fun h s => BV.assign h s o)
      | _ => none
  | .push i v => w.modify i (fun h s => BV.push h s v)
  | .pushOwn i k => w.modify i (fun h s => BV.pushOwn h s k)
  | .resize i n => w.modify i (fun h s => BV.resize h s n)
  | .reserve i n => w.modify i (fun h s => BV.reserve h s n)
  | .clear i => w.modify i BV.clear
  | .assignRange i vs => w.modify i (fun h s => BV.assignRange h s vs)
  | .set i k v => w.modify i (fun h s => BV.set h s k v)

/-- A history of calls. -/
def run {S : Type} (step : World V S → SeqOp V → Option (World V S)) (w : World V S) : List (SeqOp V) → Option (World V S)
  | [] => some w
  | op :: ops =>
    match step w op with
    | none => none
    | some w' => run step w' ops

end Sequences
end OpenGM
