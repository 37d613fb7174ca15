/-
Specification: heaps as the C++ standard defines them, and what `std::push_heap` and `std::pop_heap` promise.
-/
namespace OpenGM.Spec
variable {α : Type}

/-- [alg.heap.operations]: for all `i > 0`, `comp(a[(i-1)/2], a[i])` is false. -/
def IsHeap (comp : α → α → Bool) (l : List α) : Prop :=
  ∀ (i : Nat) (a b : α), 0 < i → l[(i - 1) / 2]? = some a → l[i]? = some b → comp a b = false

/-- The algorithms that the standard library provides, on the whole array. -/
structure HeapAlgorithms (α : Type) where
  /-- `push_heap(begin, end)` -/
  push : List α → List α
  /-- `pop_heap(begin, end)` -/
  pop : List α → List α
  /-- `partial_sort(begin, begin + k, end)`; the order of the elements from position `k` on is not specified. -/
  partialSort : Nat → List α → List α

/-- What the standard says about them. -/
structure HeapAlgorithms.Correct (h : HeapAlgorithms α) (comp : α → α → Bool) : Prop where
  push : ∀ (l : List α) (x : α), IsHeap comp l → IsHeap comp (h.push (l ++ [x])) ∧ (h.push (l ++ [x])).Perm (l ++ [x])
  pop : ∀ (l : List α) (x : α), IsHeap comp (x :: l) → ∃ l', h.pop (x :: l) = l' ++ [x] ∧ IsHeap comp l' ∧ l'.Perm l

end OpenGM.Spec
