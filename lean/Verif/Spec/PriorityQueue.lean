/-
Specification: a priority queue of items (numbers) as a finite map from items to priorities.
-/
namespace OpenGM.Spec

/-- Strict weak order given as a Boolean function (requirement on std comparators). -/
structure StrictWeak {P : Type} (lt : P → P → Bool) : Prop where
  irrefl : ∀ a, lt a a = false
  trans : ∀ a b c, lt a b = true → lt b c = true → lt a c = true
  split : ∀ a b c, lt a b = true → lt a c = true ∨ lt c b = true

/-- Neither is less. -/
def Equivalent {P : Type} (lt : P → P → Bool) (a b : P) : Prop := lt a b = false ∧ lt b a = false

abbrev PMap (P : Type) := Nat → Option P

namespace PMap
variable {P : Type}

def update (m : PMap P) (i : Nat) (p : Option P) : PMap P := fun j => if j = i then p else m j

/-- Number of items `≤ bound`. -/
def size (bound : Nat) (m : PMap P) : Nat := ((List.range (bound + 1)).filter (fun i => (m i).isSome)).length

/-- `i` is an item of minimal priority `p`. -/
def IsTop (lt : P → P → Bool) (m : PMap P) (i : Nat) (p : P) : Prop := m i = some p ∧ ∀ (j : Nat) (q : P), m j = some q → lt q p = false

end PMap

inductive PQOp (P : Type) where
  | push (i : Nat) (p : P)
  | pop
  | deleteItem (i : Nat)
  | changePriority (i : Nat) (p : P)
  | reset
  | setPriorities (p : P)

variable {P : Type}

/-- Preconditions, for a queue constructed with `maxSize`. -/
def PQOp.Valid (maxSize : Nat) (m : PMap P) : PQOp P → Prop
  | .push i _ => i ≤ maxSize ∧ (m i = none → m.size maxSize < maxSize)
  | .pop => ∃ i p, m i = some p
  | .deleteItem i => ∃ p, m i = some p
  | .changePriority i _ => ∃ p, m i = some p
  | .reset => True
  | .setPriorities _ => True

/-- Content `m'` after a call; `top` is what top() returned before. A priority that is changed to an equivalent one may be kept. -/
def PQOp.After (lt : P → P → Bool) (m : PMap P) (top : Option Nat) (m' : PMap P) : PQOp P → Prop
  | .push i p => m' = m.update i (some p) ∨ ∃ q, m i = some q ∧ Equivalent lt p q ∧ m' = m
  | .pop => ∃ i p, top = some i ∧ m.IsTop lt i p ∧ m' = m.update i none
  | .deleteItem i => m' = m.update i none
  | .changePriority i p => m' = m.update i (some p) ∨ ∃ q, m i = some q ∧ Equivalent lt p q ∧ m' = m
  | .reset => m' = fun _ => none
  | .setPriorities p => m' = fun i => (m i).map (fun _ => p)

end OpenGM.Spec
