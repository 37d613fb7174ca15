/-
Specification: what calls on sequence containers mean for their contents. An entry `none` is a value that is not specified (after
`resize` to a larger size). Nothing here refers to the model of the C++ code.
-/
namespace OpenGM.Spec

/-- Calls on sequences. Sequences are numbered in the order of their construction. -/
inductive SeqOp (V : Type) where
  | new
  | newSize (n : Nat)
  | newFill (n : Nat) (v : V)
  | copy (i : Nat)
  | destroy (i : Nat)
  | assign (i j : Nat)
  | push (i : Nat) (v : V)
  | pushOwn (i k : Nat)
  | resize (i n : Nat)
  | reserve (i n : Nat)
  | clear (i : Nat)
  | assignRange (i : Nat) (vs : List V)
  | set (i k : Nat) (v : V)

/-- The contents of all sequences; `none` for a sequence that has been destroyed. -/
abbrev Contents (V : Type) := List (Option (List (Option V)))

/-- Replace the contents of sequence `i`. -/
def Contents.modify {V : Type} (cs : Contents V) (i : Nat) (f : List (Option V) → Option (List (Option V))) : Option (Contents V) :=
  match cs[i]? with
  | some (some c) =>
    match f c with
    | some c' => some (cs.set i (some c'))
    | none => none
  | _ => none

/-- The meaning of a call; `none` if the call is not allowed (the sequence does not exist, an index is out of range). -/
def SeqOp.apply {V : Type} (cs : Contents V) : SeqOp V → Option (Contents V)
  | .new => some (cs ++ [some []])
  | .newSize n => some (cs ++ [some (List.replicate n none)])
  | .newFill n v => some (cs ++ [some (List.replicate n (some v))])
  | .copy i =>
    match cs[i]? with
    | some (some c) => some (cs ++ [some c])
    | _ => none
  | .destroy i =>
    match cs[i]? with
    | some (some _) => some (cs.set i none)
    | _ => none
  | .assign i j =>
    match cs[j]? with
    | some (some c) => cs.modify i (fun _ => some c)
    | _ => none
  | .push i v => cs.modify i (fun c => some (c ++ [some v]))
  | .pushOwn i k => cs.modify i (fun c => match c[k]? with
    | some x => some (c ++ [x])
    | none => none)
  | .resize i n => cs.modify i (fun c => some (c.take n ++ List.replicate (n - c.length) none))
  | .reserve i _ => cs.modify i some
  | .clear i => cs.modify i (fun _ => some [])
  | .assignRange i vs => cs.modify i (fun _ => some (vs.map some))
  | .set i k v => cs.modify i (fun c => if k < c.length then some (c.set k (some v)) else none)

/-- The meaning of a history. -/
def SeqOp.applyAll {V : Type} (cs : Contents V) : List (SeqOp V) → Option (Contents V)
  | [] => some cs
  | op :: ops =>
    match op.apply cs with
    | none => none
    | some cs' => applyAll cs' ops

end OpenGM.Spec
