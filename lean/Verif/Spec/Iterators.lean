/-
Specification of random access iterators: an iterator is a position in a sequence.
-/
namespace OpenGM.Spec.Iterators

/-- The operations that move an iterator: `++it`, `it++`, `--it`, `it--`, `it += n`, `it -= n`, `it = it + n`, `it = it - n`. -/
inductive Move where
  | inc | postInc | dec | postDec
  | add (n : Int) | sub (n : Int) | plus (n : Int) | minus (n : Int)

/-- The distance of a move. -/
def Move.delta : Move → Int
  | .inc => 1
  | .postInc => 1
  | .dec => -1
  | .postDec => -1
  | .add n => n
  | .sub n => -n
  | .plus n => n
  | .minus n => -n

/-- The moves stay within a sequence of length `len` (the position after the last element is allowed). -/
def Within (len : Nat) : Int → List Move → Prop
  | _, [] => True
  | pos, m :: ms => 0 ≤ pos + m.delta ∧ pos + m.delta ≤ len ∧ Within len (pos + m.delta) ms

/-- The position after the moves. -/
def position (pos : Int) (ms : List Move) : Int := pos + (ms.map Move.delta).sum

end OpenGM.Spec.Iterators
