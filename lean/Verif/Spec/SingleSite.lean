/-
Specification for C83: a function of one variable is an array of values; programs work with several arrays.
-/
namespace OpenGM.Spec
variable {V : Type}

/-- What a program can do with its arrays `0, 1, ...`. -/
inductive ArrayOp (V : Type) where
  | make (n : Nat)
  | makeFill (n : Nat) (v : V)
  | copy (i : Nat)
  | assign (i j : Nat)
  | resize (i n : Nat)
  | resizeFill (i n : Nat) (v : V)
  | write (i k : Nat) (v : V)

/-- The arrays after an operation; elements that were not written are `none`. A new array is put at the end. -/
def ArrayOp.apply (w : List (List (Option V))) : ArrayOp V → List (List (Option V))
  | .make n => w ++ [List.replicate n none]
  | .makeFill n v => w ++ [List.replicate n (some v)]
  | .copy i => match w[i]? with
    | some a => w ++ [a]
    | none => w
  | .assign i j => match w[j]? with
    | some a => w.set i a
    | none => w
  | .resize i n => match w[i]? with
    | some a => if a.length = n then w else w.set i (List.replicate n none)
    | none => w
  | .resizeFill i n v => w.set i (List.replicate n (some v))
  | .write i k v => match w[i]? with
    | some a => w.set i (a.set k (some v))
    | none => w

/-- The operation refers to existing arrays and elements. -/
def ArrayOp.InRange (w : List (List (Option V))) : ArrayOp V → Prop
  | .make _ => True
  | .makeFill _ _ => True
  | .copy i => i < w.length
  | .assign i j => i < w.length ∧ j < w.length
  | .resize i _ => i < w.length
  | .resizeFill i _ _ => i < w.length
  | .write i k _ => ∃ a, w[i]? = some a ∧ k < a.length

/-- The operation gives a size that is not zero to an existing array of size zero. -/
def ArrayOp.GrowsEmpty (w : List (List (Option V))) : ArrayOp V → Prop
  | .assign i j => w[i]? = some [] ∧ w[j]? ≠ some []
  | .resize i n => w[i]? = some [] ∧ n ≠ 0
  | .resizeFill i n _ => w[i]? = some [] ∧ n ≠ 0
  | _ => False

end OpenGM.Spec
