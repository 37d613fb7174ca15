/-
Conventions shared by the whole model of opengm.
-/
namespace OpenGM

/-- Outcome of a C++ member function that may throw: `ok` returned value and new object state; `throw` an exception
left the function, with the object state it leaves behind; `ub` undefined behaviour was reached
(out-of-range access etc.). -/
inductive Outcome (σ α : Type) where
  | ok (a : α) (s : σ)
  | throw (s : σ)
  | ub

/-- `v[i] = x` on a `std::vector`: undefined (`none`) when `i` is out of range. -/
def setAt {α : Type} (l : List α) (i : Nat) (x : α) : Option (List α) :=
  if i < l.length then some (l.set i x) else none

theorem setAt_of_lt {α : Type} {l : List α} {i : Nat} (x : α) (h : i < l.length) :
    setAt l i x = some (l.set i x) := by simp [setAt, h]

theorem setAt_eq_some {α : Type} {l l' : List α} {i : Nat} {x : α} :
    setAt l i x = some l' ↔ i < l.length ∧ l' = l.set i x := by
  unfold setAt
  split
  · simp_all [eq_comm]
  · simp; omega

end OpenGM
