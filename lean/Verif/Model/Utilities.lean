/-
Models of small utilities: include/opengm/utilities/sorting.hxx, unsigned_integer_pow.hxx and tribool.hxx.
-/
namespace OpenGM
namespace Util

/-- sorting.hxx 22-29: the loop of `findInSortedSequence` over `sequenceBegin[p]`. The pair is (returned bool, `position`). -/
def findLoop {α : Type} (lt : α → α → Bool) (eq : α → α → Bool) (toFind : α) (position : Nat) : Nat → List α → Bool × Nat
  | _, [] => (false, position)
  | p, x :: xs =>
    if lt toFind x then (false, position)
    else if eq toFind x then (true, p)
    else findLoop lt eq toFind position (p + 1) xs

/-- sorting.hxx 10-31 `findInSortedSequence(begin, size, toFind, position)`. `a > b` is `lt b a`. The casts to the type of
`toFind` are dropped (one type). An empty sequence reads `sequenceBegin[-1]`: `none`. -/
def findInSortedSequence {α : Type} (lt : α → α → Bool) (eq : α → α → Bool) (seq : List α) (toFind : α) (position : Nat) :
    Option (Bool × Nat) :=
  match seq.getLast? with
  | none => none
  | some last => if lt last toFind then some (false, position) else some (findLoop lt eq toFind position 0 seq)

/-- sorting.hxx 39-45: the loop of `isSorted`. -/
def isSortedLoop {α : Type} (lt : α → α → Bool) : α → List α → Bool
  | _, [] => true
  | tmp, x :: xs => if lt x tmp then false else isSortedLoop lt x xs

/-- sorting.hxx 33-48 `isSorted`. -/
def isSorted {α : Type} (lt : α → α → Bool) (l : List α) : Bool :=
  match l with
  | x :: y :: xs => isSortedLoop lt x (x :: y :: xs)
  | _ => true

/-- sorting.hxx 90-96: collect the pairs; `none` when the second sequence is too short. -/
def collectPairs {α β : Type} : List α → List β → Option (List (α × β))
  | [], _ => some []
  | _ :: _, [] => none
  | a :: as, b :: bs =>
    match collectPairs as bs with
    | none => none
    | some ps => some ((a, b) :: ps)

/-- sorting.hxx 99-106: write the pairs back; elements of the second sequence beyond the length of the first one stay. -/
def writePairs {α β : Type} : List α → List β → List (α × β) → Option (List α × List β)
  | [], bs, _ => some ([], bs)
  | _ :: as, _ :: bs, (a, b) :: ps =>
    match writePairs as bs ps with
    | none => none
    | some (as', bs') => some (a :: as', b :: bs')
  | _ :: _, _, _ => none

/-- sorting.hxx 78-107 `doubleSort`. `sort` is `std::sort` with the comparison of the first components. -/
def doubleSort {α β : Type} (sort : List (α × β) → List (α × β)) (as : List α) (bs : List β) : Option (List α × List β) :=
  match collectPairs as bs with
  | none => none
  | some ps => writePairs as bs (sort ps)

/-- unsigned_integer_pow.hxx 14-25: the loop, on machine words of `w` bits. Running out of fuel is `none`. -/
def powLoop (w : Nat) : Nat → Nat → Nat → Nat → Option Nat
  | fuel, base, exponent, result =>
    if exponent = 0 then some result
    else match fuel with
      | 0 => none
      | fuel + 1 =>
        powLoop w fuel (base * base % 2 ^ w) (exponent / 2) (if exponent % 2 = 1 then result * base % 2 ^ w else result)

/-- unsigned_integer_pow.hxx 6-28 `unsignedIntegerPow`. -/
def unsignedIntegerPow (w base exponent : Nat) : Option Nat :=
  if base = 1 then some 1
  else if base = 0 ∧ exponent > 0 then some 0
  else powLoop w exponent base exponent 1

/-- tribool.hxx 11, 35: `value_`, always one of the three states. -/
inductive Tribool | true_ | false_ | maybe_
  deriving DecidableEq, Repr

namespace Tribool

/-- tribool.hxx 11: the number of a state. -/
def value : Tribool → Int | true_ => 1 | false_ => 0 | maybe_ => -1

/-- tribool.hxx 57-64, 77-88: `Tribool(val)` and `operator=(val)` for a number. -/
def ofInt (val : Int) : Tribool := if val = -1 then maybe_ else if val = 0 then false_ else true_

/-- tribool.hxx 99-107 `operator==(bool)`. -/
def eqBool (t : Tribool) (a : Bool) : Bool :=
  (decide (t.value = 1) && (a == true)) || (decide (t.value = 0) && (a == false))

/-- tribool.hxx 132-135 `operator bool`. -/
def toBool (t : Tribool) : Bool := decide (t.value = 1)

/-- tribool.hxx 109-117 `operator==(T)` for a number. -/
def eqInt (t : Tribool) (a : Int) : Bool := decide (a = t.value)

/-- tribool.hxx 109-117 `operator==(T)` with `T = Tribool`: `static_cast<int>(a)` goes through `operator bool`. -/
def eqTribool (t a : Tribool) : Bool := decide ((if a.toBool then 1 else 0) = t.value)

/-- tribool.hxx 119-127 `operator!=(bool)`. -/
def neBool (t : Tribool) (a : Bool) : Bool :=
  (decide (t.value ≠ 1) && (a == true)) || (decide (t.value ≠ 1) && (a == false))

/-- tribool.hxx 137-141 `operator!`. -/
def not_ (t : Tribool) : Bool := decide (t.value = 0)

/-- tribool.hxx 143-147 `maybe()`. -/
def isMaybe (t : Tribool) : Bool := decide (t.value = -1)

/-- tribool.hxx 160-165 `operator&=`. -/
def andAssign (t state : Tribool) : Tribool :=
  let t1 := if state = true_ ∧ t ≠ false_ then true_ else t
  if state = false_ then false_ else t1

end Tribool
end Util
end OpenGM
