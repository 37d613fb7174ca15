import Verif.Model.Movemaker
import Verif.Model.FactorGraph
/-
Model of include/opengm/inference/icm.hxx (class ICM). The visitor is one that always returns ContinueInf
(EmptyVisitor); `while` loops carry a fuel argument, `none` when it runs out (see `Icm.fuel`) or on undefined behaviour.
-/
namespace OpenGM
namespace Icm
open Spec (InvOperation)
variable {V : Type}

/-- Local variables of `infer`: the movemaker, `isLocalOptimal` and `updates`. -/
structure St (V : Type) where
  m : Movemaker V
  flags : List Bool
  updates : Bool

/-- icm.hxx 206-208, 251-253: `isLocalOptimal[w] = false` for all listed `w`. -/
def resetFlags : List Nat → List Bool → Option (List Bool)
  | [], flags => some flags
  | w :: ws, flags =>
    match setAt flags w false with
    | none => none
    | some flags' => resetFlags ws flags'

/-- icm.hxx 202-215: try all labels of variable `v`. -/
def labelLoop (o : InvOperation V) (multiplier : Bool) (bop : V → V → Bool) (adjV : List Nat) (v : Nat) :
    List Nat → St V → Option (St V)
  | [], st => some st
  | s :: ss, st =>
    match st.m.state[v]? with
    | none => none
    | some cur =>
      if s ≠ cur then
        match st.m.valueAfterMove o multiplier [v] [s] with
        | none => none
        | some (e, m1) =>
          if bop e m1.value then
            match m1.move o multiplier [v] [s], resetFlags adjV st.flags with
            | some (_, m2), some flags' => labelLoop o multiplier bop adjV v ss ⟨m2, flags', true⟩
            | _, _ => none
          else labelLoop o multiplier bop adjV v ss { st with m := m1 }
      else labelLoop o multiplier bop adjV v ss st

/-- icm.hxx 200-218: one sweep over the variables `vs`. -/
def sweep (o : InvOperation V) (multiplier : Bool) (bop : V → V → Bool) (adj : List (List Nat)) :
    List Nat → St V → Option (St V)
  | [], st => some st
  | v :: vs, st =>
    match st.flags[v]? with
    | none => none
    | some true => sweep o multiplier bop adj vs st
    | some false =>
      match adj[v]?, st.m.gm.numLabels[v]? with
      | some adjV, some n =>
        match labelLoop o multiplier bop adjV v (List.range n) st with
        | none => none
        | some st' =>
          match setAt st'.flags v true with
          | none => none
          | some flags' => sweep o multiplier bop adj vs { st' with flags := flags' }
      | _, _ => none

/-- icm.hxx 198-219: the outer loop of the single variable phase. -/
def singleLoop (o : InvOperation V) (multiplier : Bool) (bop : V → V → Bool) (adj : List (List Nat)) :
    Nat → Movemaker V → List Bool → Option (Movemaker V)
  | 0, _, _ => none
  | fuel + 1, m, flags =>
    match sweep o multiplier bop adj (List.range m.gm.numberOfVariables) ⟨m, flags, false⟩ with
    | none => none
    | some st => if st.updates then singleLoop o multiplier bop adj fuel st.m st.flags else some st.m

/-- One more than the number of labelings. -/
def fuel (gm : GM V) : Nat := gm.numLabels.foldr (· * ·) 1 + 1

/-- icm.hxx 192-220: single variable moves. -/
def inferSingle (o : InvOperation V) (multiplier : Bool) (bop : V → V → Bool) (m : Movemaker V) : Option (Movemaker V) :=
  match m.gm.factorGraph.variableAdjacencyList with
  | none => none
  | some adj => singleLoop o multiplier bop adj (fuel m.gm) m (List.replicate m.gm.numberOfVariables false)

/-- icm.hxx 248-255: reset the flags of the factors of all changed variables of the factor. -/
def markChanged (gm : GM V) (state : List Nat) : List Nat → List Nat → List Bool → Option (List Bool)
  | [], _, flags => some flags
  | _ :: _, [], _ => none
  | v :: vs, old :: olds, flags =>
    match state[v]? with
    | none => none
    | some new =>
      if old ≠ new then
        match gm.adj[v]? with
        | none => none
        | some fs =>
          match resetFlags fs flags with
          | none => none
          | some flags' => markChanged gm state vs olds flags'
      else markChanged gm state vs olds flags

/-- icm.hxx 233-259: one sweep over the factors; `k` is the index of the first one. -/
def factorSweep (o : InvOperation V) (bop : V → V → Bool) (reevaluate : V → Bool) :
    List FactorRec → Nat → St V → Option (St V)
  | [], _, st => some st
  | fac :: rest, k, st =>
    match st.flags[k]? with
    | none => none
    | some flag =>
      if flag = false ∧ fac.visSize > 1 then
        match Movemaker.factorState st.m.gm fac st.m.state,
          st.m.moveOptimally o bop reevaluate (st.m.gm.scope fac) with
        | some old, some (new, m') =>
          let marked :=
            if bop new st.m.value then
              (markChanged m'.gm m'.state (m'.gm.scope fac) old st.flags).map (fun fl => (fl, true))
            else some (st.flags, st.updates)
          match marked with
          | none => none
          | some (flags1, upd) =>
            match setAt flags1 k true with
            | none => none
            | some flags2 => factorSweep o bop reevaluate rest (k + 1) ⟨m', flags2, upd⟩
        | _, _ => none
      else factorSweep o bop reevaluate rest (k + 1) st

/-- icm.hxx 231-260: the outer loop of the FACTOR phase. -/
def factorLoop (o : InvOperation V) (bop : V → V → Bool) (reevaluate : V → Bool) :
    Nat → Movemaker V → List Bool → Option (Movemaker V)
  | 0, _, _ => none
  | fuel + 1, m, flags =>
    match factorSweep o bop reevaluate m.gm.factors 0 ⟨m, flags, false⟩ with
    | none => none
    | some st => if st.updates then factorLoop o bop reevaluate fuel st.m st.flags else some st.m

/-- icm.hxx 182-264 `infer`; `factorMoves` is `param_.moveType_ == FACTOR`. -/
def infer (o : InvOperation V) (multiplier : Bool) (bop : V → V → Bool) (reevaluate : V → Bool) (factorMoves : Bool)
    (m : Movemaker V) : Option (Movemaker V) :=
  match inferSingle o multiplier bop m with
  | none => none
  | some m1 =>
    if factorMoves then factorLoop o bop reevaluate (fuel m1.gm) m1 (List.replicate m1.gm.numberOfFactors false)
    else some m1

/-- icm.hxx 117-134: constructor; `none` also stands for the exception "unsuitable starting point". -/
def construct (o : InvOperation V) (gm : GM V) (startPoint : List Nat) : Option (Movemaker V) :=
  match Movemaker.ofModel o gm with
  | none => none
  | some m =>
    if startPoint.length = gm.numberOfVariables then m.initializeFrom o startPoint
    else if startPoint.length ≠ 0 then none
    else some m

end Icm
end OpenGM
