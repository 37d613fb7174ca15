import Verif.Model.Basic
import Verif.Spec.PriorityQueue
/-
Model of include/opengm/utilities/queues.hxx: class ChangeablePriorityQueue (65-242) and class FiFoQueue (10-57).

Integers -1 in `heap_` and `indices_` are `none`; using one of them as an index, and any access out of range, is undefined (`none` outside).
-/
namespace OpenGM
open Spec

/-- Data members (235-240). `comp_` is a parameter of the functions. -/
structure PQ (P : Type) where
  maxSize : Nat
  cur : Nat
  heap : List (Option Nat)
  indices : List (Option Nat)
  priorities : List P

namespace PQ
variable {P : Type}

/-- 79-88 constructor. `T()` and `int()` fill the vectors; `p0` is `T()`. -/
def new (p0 : P) (maxSize : Nat) : PQ P :=
  ⟨maxSize, 0, List.replicate (maxSize + 1) (some 0), List.replicate (maxSize + 1) none, List.replicate (maxSize + 1) p0⟩

/-- `heap_[k]`, used as an index. -/
def heapAt (q : PQ P) (k : Nat) : Option Nat :=
  match q.heap[k]? with
  | some (some i) => some i
  | _ => none

/-- `priorities_[heap_[k]]`. -/
def prioAt (q : PQ P) (k : Nat) : Option P :=
  match q.heapAt k with
  | some i => q.priorities[i]?
  | none => none

/-- 224-229 `_eq`, `_gt`. -/
def gt (lt : P → P → Bool) (a b : P) : Bool := !(!lt a b && !lt b a) && !lt a b

/-- 221-223 `_leqt`. -/
def leqt (lt : P → P → Bool) (a b : P) : Bool := !lt b a

/-- 191-195 `swapItems`. -/
def swapItems (q : PQ P) (i j : Nat) : Option (PQ P) :=
  match q.heap[i]?, q.heap[j]? with
  | some a, some b =>
    let heap := (q.heap.set i b).set j a
    match heap[i]?, heap[j]? with
    | some (some x), some (some y) =>
      match setAt q.indices x (some i) with
      | none => none
      | some ind =>
        match setAt ind y (some j) with
        | none => none
        | some ind' => some ⟨q.maxSize, q.cur, heap, ind', q.priorities⟩
    | _, _ => none
  | _, _ => none

/-- 197-202 `bubbleUp(k)`. The first number bounds the iterations; it is always large enough (the theorems show that `none` does not occur). -/
def bubbleUp (lt : P → P → Bool) : Nat → PQ P → Nat → Option (PQ P)
  | 0, _, _ => none
  | n + 1, q, k =>
    if k > 1 then
      match q.prioAt (k / 2), q.prioAt k with
      | some a, some b =>
        if gt lt a b then
          match q.swapItems k (k / 2) with
          | none => none
          | some q' => bubbleUp lt n q' (k / 2)
        else some q
      | _, _ => none
    else some q

/-- 207-209: the child to compare with. -/
def child (lt : P → P → Bool) (q : PQ P) (k : Nat) : Option Nat :=
  if 2 * k < q.cur then
    match q.prioAt (2 * k), q.prioAt (2 * k + 1) with
    | some a, some b => if gt lt a b then some (2 * k + 1) else some (2 * k)
    | _, _ => none
  else some (2 * k)

/-- 204-215 `bubbleDown(k)`. The first number bounds the iterations. -/
def bubbleDown (lt : P → P → Bool) : Nat → PQ P → Nat → Option (PQ P)
  | 0, _, _ => none
  | n + 1, q, k =>
    if 2 * k ≤ q.cur then
      match q.child lt k with
      | none => none
      | some j =>
        match q.prioAt k, q.prioAt j with
        | some a, some b =>
          if leqt lt a b then some q
          else
            match q.swapItems k j with
            | none => none
            | some q' => bubbleDown lt n q' j
        | _, _ => none
    else some q

/-- 105-107 `empty`. -/
def isEmpty (q : PQ P) : Bool := decide (q.cur = 0)

/-- 110-112 `contains`. -/
def contains (q : PQ P) (i : Nat) : Option Bool := (q.indices[i]?).map Option.isSome

/-- 115-117 `size`. -/
def size (q : PQ P) : Nat := q.cur

/-- 141-143 `top`: the entry may be -1. -/
def top (q : PQ P) : Option (Option Nat) := q.heap[1]?

/-- 147-149 `topPriority`. -/
def topPriority (q : PQ P) : Option P := q.prioAt 1

/-- 162-164 `priority`. -/
def priority (q : PQ P) (i : Nat) : Option P := q.priorities[i]?

/-- 167-173 `deleteItem`. -/
def deleteItem (lt : P → P → Bool) (q : PQ P) (i : Nat) : Option (PQ P) :=
  match q.indices[i]? with
  | some (some ind) =>
    match q.swapItems ind q.cur with
    | none => none
    | some q1 =>
      let q1 : PQ P := ⟨q1.maxSize, q1.cur - 1, q1.heap, q1.indices, q1.priorities⟩
      match bubbleUp lt (ind + 1) q1 ind with
      | none => none
      | some q2 =>
        match bubbleDown lt (q2.cur + 2) q2 ind with
        | none => none
        | some q3 =>
          match setAt q3.indices i none with
          | none => none
          | some ind' => some ⟨q3.maxSize, q3.cur, q3.heap, ind', q3.priorities⟩
  | _ => none

/-- 153-160 `pop`. -/
def pop (lt : P → P → Bool) (q : PQ P) : Option (PQ P) :=
  match q.heapAt 1 with
  | none => none
  | some min =>
    match q.swapItems 1 q.cur with
    | none => none
    | some q1 =>
      let q1 : PQ P := ⟨q1.maxSize, q1.cur - 1, q1.heap, q1.indices, q1.priorities⟩
      match bubbleDown lt (q1.cur + 2) q1 1 with
      | none => none
      | some q2 =>
        match setAt q2.indices min none, setAt q2.heap (q2.cur + 1) none with
        | some ind', some heap' => some ⟨q2.maxSize, q2.cur, heap', ind', q2.priorities⟩
        | _, _ => none

/-- 178-187 `changePriority` of an item in the queue. -/
def changePriority (lt : P → P → Bool) (q : PQ P) (i : Nat) (p : P) : Option (PQ P) :=
  match q.priorities[i]?, q.indices[i]? with
  | some old, some (some ind) =>
    let q1 : PQ P := ⟨q.maxSize, q.cur, q.heap, q.indices, q.priorities.set i p⟩
    if gt lt p old then bubbleDown lt (q1.cur + 2) q1 ind
    else if lt p old then bubbleUp lt (ind + 1) q1 ind
    else some q
  | _, _ => none

/-- 126-137 `push`. -/
def push (lt : P → P → Bool) (q : PQ P) (i : Nat) (p : P) : Option (PQ P) :=
  match q.contains i with
  | none => none
  | some true => q.changePriority lt i p
  | some false =>
    match setAt q.indices i (some (q.cur + 1)), setAt q.heap (q.cur + 1) (some i), setAt q.priorities i p with
    | some ind', some heap', some pr' => bubbleUp lt (q.cur + 2) ⟨q.maxSize, q.cur + 1, heap', ind', pr'⟩ (q.cur + 1)
    | _, _, _ => none

/-- 99-100: loop of `reset`: `indices_[heap_[i]] = -1` for `i` and the next `n` positions. -/
def resetLoop (heap : List (Option Nat)) : Nat → Nat → List (Option Nat) → Option (List (Option Nat))
  | _, 0, ind => some ind
  | i, n + 1, ind =>
    match heap[i]? with
    | some (some x) =>
      match setAt ind x none with
      | none => none
      | some ind' => resetLoop heap (i + 1) n ind'
    | _ => none

/-- 98-103 `reset`. -/
def reset (q : PQ P) : Option (PQ P) :=
  match resetLoop q.heap 0 (q.cur + 1) q.indices with
  | none => none
  | some ind' => some ⟨q.maxSize, 0, q.heap, ind', q.priorities⟩

/-- 91-95 `setPriorities`. -/
def setPriorities (q : PQ P) (p : P) : PQ P := ⟨q.maxSize, q.cur, q.heap, q.indices, q.priorities.map (fun _ => p)⟩

/-- A call. -/
def step (lt : P → P → Bool) (q : PQ P) : PQOp P → Option (PQ P)
  | .push i p => q.push lt i p
  | .pop => q.pop lt
  | .deleteItem i => q.deleteItem lt i
  | .changePriority i p => q.changePriority lt i p
  | .reset => q.reset
  | .setPriorities p => some (q.setPriorities p)

end PQ

/-- Class FiFoQueue (10-57): data members. -/
structure Fifo (T : Type) where
  begin_ : Nat
  end_ : Nat
  maxSize : Nat
  data : List T

namespace Fifo
variable {T : Type}

/-- 19-22 constructor; `t0` is `T()`. -/
def new (t0 : T) (maxSize : Nat) : Fifo T := ⟨0, 0, maxSize, List.replicate maxSize t0⟩

/-- 24-26 `front`. -/
def front (q : Fifo T) : Option T := q.data[q.begin_]?

/-- 28-30 `pop`. -/
def pop (q : Fifo T) : Fifo T := ⟨q.begin_ + 1, q.end_, q.maxSize, q.data⟩

/-- 32-39 `push`. -/
def push (q : Fifo T) (t : T) : Option (Fifo T) := (setAt q.data q.end_ t).map (fun d => ⟨q.begin_, q.end_ + 1, q.maxSize, d⟩)

/-- 41-43 `empty`. -/
def isEmpty (q : Fifo T) : Bool := decide (q.begin_ = q.end_)

/-- 45-50 `size`. -/
def size (q : Fifo T) : Nat := if q.begin_ ≤ q.end_ then q.end_ - q.begin_ else q.end_ + q.maxSize - 1 - q.begin_

/-- 52-55 `clear`. -/
def clear (q : Fifo T) : Fifo T := ⟨0, 0, q.maxSize, q.data⟩

end Fifo
end OpenGM
