import Verif.Model.Movemaker
/-
Model of include/opengm/inference/bruteforce.hxx (class Bruteforce). The visitor is one that always returns ContinueInf; the
labelings at which it is called are recorded in `visited`.
-/
namespace OpenGM
namespace Bruteforce
open Spec (InvOperation)
variable {V : Type}

/-- bruteforce.hxx 57-61: data members. -/
structure Bf (V : Type) where
  m : Movemaker V
  states : List Nat
  energy : V

/-- bruteforce.hxx 63-74: constructor. -/
def construct (o : InvOperation V) (accNeutral : V) (gm : GM V) : Option (Bf V) :=
  match Movemaker.ofModel o gm with
  | none => none
  | some m => some ⟨m, List.replicate gm.numberOfVariables 0, accNeutral⟩

/-- bruteforce.hxx 84-94: constructor with parameter, which leaves `energy_` value-initialised (`default`). -/
def constructParam (o : InvOperation V) (default : V) (gm : GM V) : Option (Bf V) :=
  match Movemaker.ofModel o gm with
  | none => none
  | some m => some ⟨m, List.replicate gm.numberOfVariables 0, default⟩

/-- bruteforce.hxx 76-82 `reset`. -/
def reset (o : InvOperation V) (accNeutral : V) (b : Bf V) : Option (Bf V) :=
  match b.m.reset o with
  | none => none
  | some m => some ⟨m, b.states.map (fun _ => 0), accNeutral⟩

/-- bruteforce.hxx 124-126: `for(k=0; k<j; ++k) states[k] = 0`. -/
def zeroPrefix (j : Nat) (states : List Nat) : List Nat := (List.range j).foldl (fun s k => s.set k 0) states

/-- bruteforce.hxx 120-131: increment; inner `none` is overflow. The list argument holds the positions still to look at. -/
def increment (nl states : List Nat) : List Nat → Option (Option (List Nat))
  | [] => some none
  | j :: js =>
    match states[j]?, nl[j]? with
    | some s, some n => if s + 1 < n then some (some (zeroPrefix j (states.set j (s + 1)))) else increment nl states js
    | _, _ => none

/-- bruteforce.hxx 111-135: the main loop, `fuel` = at most one iteration per labeling. `accOp` is `AccumulationType::op`. -/
def loop (o : InvOperation V) (multiplier : Bool) (bop : V → V → Bool) (accOp : V → V → V) (vi : List Nat) :
    Nat → List Nat → Bf V → List (List Nat) → Option (Bf V × List (List Nat))
  | 0, _, _, _ => none
  | fuel + 1, states, b, visited =>
    match b.m.move o multiplier vi states with
    | none => none
    | some (e, m') =>
      let b' : Bf V := ⟨m', if bop e b.energy then states else b.states, accOp e b.energy⟩
      match increment b.m.gm.numLabels states vi with
      | none => none
      | some none => some (b', visited ++ [m'.state])
      | some (some states') => loop o multiplier bop accOp vi fuel states' b' (visited ++ [m'.state])

/-- Number of labelings. -/
def fuel (gm : GM V) : Nat := gm.numLabels.foldr (· * ·) 1

/-- bruteforce.hxx 96-138 `infer`. -/
def infer (o : InvOperation V) (multiplier : Bool) (bop : V → V → Bool) (accOp : V → V → V) (accNeutral : V) (b : Bf V) :
    Option (Bf V × List (List Nat)) :=
  let n := b.m.gm.numberOfVariables
  loop o multiplier bop accOp (List.range n) (fuel b.m.gm) (List.replicate n 0) { b with energy := accNeutral } []

/-- bruteforce.hxx 140-164 `arg` (for j = 1). -/
def arg (b : Bf V) : List Nat := b.states

/-- bruteforce.hxx 166-170 `value`. -/
def value (b : Bf V) : V := b.energy

end Bruteforce
end OpenGM
