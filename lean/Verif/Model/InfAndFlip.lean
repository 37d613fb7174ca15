import Verif.Model.LazyFlipper
/-
Model of include/opengm/inference/infandflip.hxx: class InfAndFlip (an inference algorithm, then the LazyFlipper from its labeling or from the starting point).
The inference algorithm INF is an argument: from the starting point that it is given (or none) to its labeling and its bound.
-/
namespace OpenGM.InfAndFlip
open LazyFlip
open Spec (Operation)
variable {V : Type}

/-- infandflip.hxx 88-97: data members, with `para_.maxSubgraphSize_` and `para_.warmStartableInf_`. `spValue` is none as long as it is not initialised. -/
structure IAF (V : Type) where
  gm : GM V
  maxSize : Nat
  warm : Bool
  state : List Nat
  value : V
  bound : V
  spValue : Option V
  sp : List Nat

/-- infandflip.hxx 103-116: constructor. -/
def construct (accNeutral accINeutral : V) (gm : GM V) (maxSize : Nat) (warm : Bool) : Outcome Unit (IAF V) :=
  if gm.numberOfVariables = 0 then .throw () else .ok ⟨gm, maxSize, warm, [], accNeutral, accINeutral, none, []⟩ ()

/-- infandflip.hxx 83-87 `setStartingPoint`; `sp` are the labels of all variables. -/
def setStartingPoint (o : Operation V) (s : IAF V) (sp : List Nat) : Option (IAF V) :=
  if sp.length ≠ s.gm.numberOfVariables then none
  else (s.gm.evaluate o sp).map (fun v => { s with sp := sp, spValue := some v })

/-- infandflip.hxx 118-121: `reset` does nothing. -/
def reset (s : IAF V) : IAF V := s

/-- infandflip.hxx 165-172: the starting point of the LazyFlipper. -/
def flipStart (bop : V → V → Bool) (s : IAF V) : Option (List Nat) :=
  if s.sp.length ≠ s.gm.numberOfVariables then some s.state
  else
    match s.spValue with
    | none => none
    | some spValue => if bop s.value spValue then some s.state else some s.sp

/-- infandflip.hxx 140-182 `infer`; `inf` is INF, `stop` the answer of the visitor. The LazyFlipper is constructed with its default parameters, and its `infer` is called without visitor. -/
def infer (c : Request V) (inf : Option (List Nat) → List Nat × V) (stop : Bool) (s : IAF V) : Outcome Unit (IAF V) :=
  match LazyFlip.construct c.o s.gm 2 [] none with
  | .ok lf () =>
    let r := inf (if s.warm && s.sp.length ≠ 0 then some s.sp else none)
    match s.gm.evaluate c.o.toOperation r.1 with
    | none => .ub
    | some v =>
      let s := { s with state := r.1, value := v, bound := r.2 }
      if stop then .ok s ()
      else if s.maxSize > 0 then
        match LazyFlip.setMaxSubgraphSize lf s.maxSize, flipStart c.bop s with
        | .ok () lf, some start =>
          match LazyFlip.setStartingPoint c.o lf start with
          | none => .ub
          | some lf =>
            match LazyFlip.infer { c with visit := fun _ => false } lf with
            | none => .ub
            | some lf =>
              match LazyFlip.arg lf with
              | none => .ub
              | some y =>
                match s.gm.evaluate c.o.toOperation y with
                | none => .ub
                | some v => .ok { s with state := y, value := v } ()
        | _, _ => .ub
      else .ok s ()
  | .throw () => .throw ()
  | .ub => .ub

/-- infandflip.hxx 194-211 `arg`, for N = 1. -/
def arg (s : IAF V) : Option (List Nat) := (List.range s.gm.numberOfVariables).mapM (fun v => s.state[v]?)

end OpenGM.InfAndFlip
