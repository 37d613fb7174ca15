import Verif.Model.GraphicalModel
import Verif.Spec.Moves
/-
Model of include/opengm/inference/movemaker.hxx (class Movemaker).

`none` is undefined behaviour or a loop that does not end. `multiplier` is the compile time test
`meta::Compare<OperatorType, Multiplier>`; `bop` is `ACCUMULATOR::bop`; `reevaluate e` is the test of lines 442-445
(ACCUMULATOR is Maximizer, OPERATOR is Multiplier and the energy `e` is 0).
`std::set<size_t>` is modelled as a sorted duplicate-free list.
-/
namespace OpenGM
open Spec (InvOperation)

/-- movemaker.hxx 79-83: data members (the reference `gm_` is the model it points to). -/
structure Movemaker (V : Type) where
  gm : GM V
  factorsOfVariable : List (List Nat)
  state : List Nat
  stateBuffer : List Nat
  energy : V

namespace Movemaker
variable {V : Type}

/-- movemaker.hxx 227-231, 252-256: `factorsOfVariable_[gm[f].variableIndex(v)].insert(f)` for all factors and positions
(the same double loop as in GraphicalModel::finalize). -/
def buildFactorsOfVariable (gm : GM V) : Option (List (List Nat)) :=
  GM.finalizeLoop gm gm.factors 0 (List.replicate gm.numberOfVariables [])

/-- movemaker.hxx 217-232: constructor; all labels 0. -/
def ofModel (o : InvOperation V) (gm : GM V) : Option (Movemaker V) :=
  let zeros := List.replicate gm.numberOfVariables 0
  match gm.evaluate o.toOperation zeros, buildFactorsOfVariable gm with
  | some e, some fov => some ⟨gm, fov, zeros, zeros, e⟩
  | _, _ => none

/-- movemaker.hxx 248-251, 266-269: copy one label per variable from the iterator. -/
def readLabels (gm : GM V) (it : List Nat) : Option (List Nat) :=
  if gm.numberOfVariables ≤ it.length then some (it.take gm.numberOfVariables) else none

/-- movemaker.hxx 234-257: constructor with initial labels. -/
def ofLabels (o : InvOperation V) (gm : GM V) (it : List Nat) : Option (Movemaker V) :=
  match gm.evaluate o.toOperation it, readLabels gm it, buildFactorsOfVariable gm with
  | some e, some x, some fov => some ⟨gm, fov, x, x, e⟩
  | _, _, _ => none

/-- movemaker.hxx 259-270 `initialize`. -/
def initializeFrom (o : InvOperation V) (m : Movemaker V) (it : List Nat) : Option (Movemaker V) :=
  match m.gm.evaluate o.toOperation it, readLabels m.gm it with
  | some e, some x => some { m with state := x, stateBuffer := x, energy := e }
  | _, _ => none

/-- movemaker.hxx 272-280 `reset`. -/
def reset (o : InvOperation V) (m : Movemaker V) : Option (Movemaker V) :=
  let zeros := List.replicate m.gm.numberOfVariables 0
  match m.gm.evaluate o.toOperation zeros with
  | some e => some { m with state := zeros, stateBuffer := zeros, energy := e }
  | none => none

/-- movemaker.hxx 282-286 `value`. -/
def value (m : Movemaker V) : V := m.energy

/-- movemaker.hxx 327-334, 636-639: the labels of the variables of one factor. -/
def factorState (gm : GM V) (f : FactorRec) (x : List Nat) : Option (List Nat) :=
  (List.range f.visSize).mapM (fun j => (gm.visAt f j).bind (fun vi => x[vi]?))

/-- `gm_[f](factorState.begin())` for factor index `f` at labels `x`. -/
def factorValue (gm : GM V) (f : Nat) (x : List Nat) : Option V :=
  match gm.factors[f]? with
  | none => none
  | some fac =>
    match factorState gm fac x with
    | none => none
    | some s => gm.callFactor fac s

/-- `std::set_union` of two ordered sets (lines 316-319, 383-387). -/
def setUnion (a b : List Nat) : List Nat := b.foldl (fun s x => (RandomAccessSet.insert natLess s x).1) a

/-- movemaker.hxx 303-305: write the destination labels (Multiplier branch). -/
def writeAll : List Nat → List Nat → List Nat → Option (List Nat)
  | [], _, buf => some buf
  | _ :: _, [], _ => none
  | v :: vars, l :: labels, buf =>
    match setAt buf v l with
    | none => none
    | some buf' => writeAll vars labels buf'

/-- movemaker.hxx 310-312, 345-347, 457-460: `stateBuffer_[v] = state_[v]`. -/
def restore (state : List Nat) : List Nat → List Nat → Option (List Nat)
  | [], buf => some buf
  | v :: vars, buf =>
    match state[v]? with
    | none => none
    | some l =>
      match setAt buf v l with
      | none => none
      | some buf' => restore state vars buf'

/-- movemaker.hxx 310-322: write changed labels and collect the factors to recompute. -/
def collect (m : Movemaker V) : List Nat → List Nat → List Nat → List Nat → Option (List Nat × List Nat)
  | [], _, buf, fs => some (buf, fs)
  | _ :: _, [], _, _ => none
  | v :: vars, l :: labels, buf, fs =>
    match m.state[v]? with
    | none => none
    | some cur =>
      if cur ≠ l then
        match setAt buf v l, m.factorsOfVariable[v]? with
        | some buf', some s => collect m vars labels buf' (setUnion fs s)
        | _, _ => none
      else collect m vars labels buf fs

/-- movemaker.hxx 324-343: update the value factor by factor. -/
def updateLoop (o : InvOperation V) (m : Movemaker V) (buf : List Nat) : List Nat → V → Option V
  | [], e => some e
  | f :: fs, e =>
    match factorValue m.gm f buf, factorValue m.gm f m.state with
    | some d, some c => updateLoop o m buf fs (o.iop (o.op e d) c)
    | _, _ => none

/-- movemaker.hxx 288-350 `valueAfterMove`. -/
def valueAfterMove (o : InvOperation V) (multiplier : Bool) (m : Movemaker V) (vars labels : List Nat) :
    Option (V × Movemaker V) :=
  if multiplier then
    match writeAll vars labels m.stateBuffer with
    | none => none
    | some buf =>
      match m.gm.evaluate o.toOperation buf, restore m.state vars buf with
      | some e, some buf' => some (e, { m with stateBuffer := buf' })
      | _, _ => none
  else
    match collect m vars labels m.stateBuffer [] with
    | none => none
    | some (buf, fs) =>
      match updateLoop o m buf fs m.energy, restore m.state vars buf with
      | some e, some buf' => some (e, { m with stateBuffer := buf' })
      | _, _ => none

/-- movemaker.hxx 352-369 `move`: returns the new energy. -/
def move (o : InvOperation V) (multiplier : Bool) (m : Movemaker V) (vars labels : List Nat) :
    Option (V × Movemaker V) :=
  match valueAfterMove o multiplier m vars labels with
  | none => none
  | some (e, m1) =>
    match writeAll vars labels m1.state, writeAll vars labels m1.stateBuffer with
    | some st, some buf => some (e, { m1 with energy := e, state := st, stateBuffer := buf })
    | _, _ => none

/-- movemaker.hxx 378-389: union of the factors of the variables. -/
def touched (m : Movemaker V) : List Nat → List Nat → Option (List Nat)
  | [], fs => some fs
  | v :: vars, fs =>
    match m.factorsOfVariable[v]? with
    | none => none
    | some s => touched m vars (setUnion fs s)

/-- movemaker.hxx 625-643 `evaluateFactors`. -/
def evaluateFactors (o : InvOperation V) (gm : GM V) (x : List Nat) : List Nat → V → Option V
  | [], e => some e
  | f :: fs, e =>
    match factorValue gm f x with
    | none => none
    | some d => evaluateFactors o gm x fs (o.op e d)

/-- movemaker.hxx 399-402: `stateBuffer_[vi] = 0`. -/
def zeroAll : List Nat → List Nat → Option (List Nat)
  | [], buf => some buf
  | v :: vars, buf =>
    match setAt buf v 0 with
    | none => none
    | some buf' => zeroAll vars buf'

/-- movemaker.hxx 411-414: `bestState[j] = stateBuffer_[variableIndices[j]]`. -/
def readAll (buf : List Nat) (vars : List Nat) : Option (List Nat) := vars.mapM (fun v => buf[v]?)

/-- movemaker.hxx 417-430: increment the buffered labels; inner `none` is `goto overflow`. For an empty list of
variables the loop body is never entered and nothing changes. A variable without labels would make
`numberOfLabels - 1` wrap around; it is treated as undefined. -/
def increment (numLabels : List Nat) : List Nat → List Nat → Option (Option (List Nat))
  | [], buf => some (some buf)
  | v :: vars, buf =>
    match buf[v]?, numLabels[v]? with
    | some b, some (n + 1) =>
      if b < n then some (some (buf.set v (b + 1)))
      else
        match vars with
        | [] => some none
        | _ :: _ => increment numLabels vars (buf.set v 0)
    | _, _ => none

/-- movemaker.hxx 403-433: the search loop, at most `fuel` iterations; state = (best energy, best labels).
Simplification: at overflow the buffer before the failed increment is returned; `commit` overwrites all entries that the
increment could have changed. -/
def searchLoop (o : InvOperation V) (bop : V → V → Bool) (gm : GM V) (fs vars : List Nat)
    (incr : List Nat → Option (Option (List Nat))) : Nat → List Nat → V → List Nat → Option (V × List Nat × List Nat)
  | 0, _, _, _ => none
  | fuel + 1, buf, best, bestState =>
    match evaluateFactors o gm buf fs o.neutral with
    | none => none
    | some e =>
      match (if bop e best then (readAll buf vars).map (fun s => (e, s)) else some (best, bestState)) with
      | none => none
      | some (best', bestState') =>
        match incr buf with
        | none => none
        | some none => some (best', bestState', buf)
        | some (some buf') => searchLoop o bop gm fs vars incr fuel buf' best' bestState'

/-- movemaker.hxx 435-464, 567-600: commit the best labels, or restore the buffer. -/
def commit (o : InvOperation V) (bop : V → V → Bool) (reevaluate : V → Bool) (m : Movemaker V) (vars : List Nat)
    (initial best : V) (bestState buf : List Nat) : Option (V × Movemaker V) :=
  if bop best initial then
    match writeAll vars bestState m.state, writeAll vars bestState buf with
    | some st, some buf' =>
      if reevaluate m.energy then
        match m.gm.evaluate o.toOperation st with
        | none => none
        | some e => some (e, { m with state := st, stateBuffer := buf', energy := e })
      else
        let e := o.op (o.iop m.energy initial) best
        some (e, { m with state := st, stateBuffer := buf', energy := e })
    | _, _ => none
  else
    match restore m.state vars buf with
    | none => none
    | some buf' => some (m.energy, { m with stateBuffer := buf' })

/-- Number of joint labelings of the variables: bound on the iterations of the search loop. -/
def searchFuel (gm : GM V) (vars : List Nat) : Nat := (vars.map (fun v => gm.numLabels.getD v 0)).foldr (· * ·) 1

/-- movemaker.hxx 376-465 `moveOptimally`. At most one iteration per joint labeling is modelled; more would be an endless
loop (as for an empty list of variables). -/
def moveOptimally (o : InvOperation V) (bop : V → V → Bool) (reevaluate : V → Bool) (m : Movemaker V) (vars : List Nat) :
    Option (V × Movemaker V) :=
  match touched m vars [] with
  | none => none
  | some fs =>
    match evaluateFactors o m.gm m.state fs o.neutral, zeroAll vars m.stateBuffer with
    | some initial, some buf =>
      match searchLoop o bop m.gm fs vars (increment m.gm.numLabels vars) (searchFuel m.gm vars) buf initial
          (List.replicate vars.length 0) with
      | none => none
      | some (best, bestState, buf') => commit o bop reevaluate m vars initial best bestState buf'
    | _, _ => none

/-- movemaker.hxx 498-500: `for(k=0; k<j; ++k) stateBuffer_[k] = state_[k]` (indexed by `k`, not by `variableIndices[k]`). -/
def restorePrefix (state : List Nat) (j : Nat) (buf : List Nat) : Option (List Nat) := restore state (List.range j) buf

/-- movemaker.hxx 493-512: initial labels different from the current ones. Inner `none`: the early return, with the buffer
it leaves behind. -/
def initChanging (gm : GM V) (state : List Nat) : List Nat → Nat → List Nat → Option (List Nat × Bool)
  | [], _, buf => some (buf, true)
  | v :: vars, j, buf =>
    match gm.numLabels[v]? with
    | none => none
    | some n =>
      if n = 1 then (restorePrefix state j buf).map (fun b => (b, false))
      else
        match state[v]? with
        | none => none
        | some s =>
          match setAt buf v (if s = 0 then 1 else 0) with
          | none => none
          | some buf' => initChanging gm state vars (j + 1) buf'

/-- movemaker.hxx 533-562: increment, skipping the current labels. -/
def incrementChanging (numLabels state : List Nat) : List Nat → List Nat → Option (Option (List Nat))
  | [], buf => some (some buf)
  | v :: vars, buf =>
    match buf[v]?, numLabels[v]?, state[v]? with
    | some b, some (n + 1), some s =>
      if b < n ∧ b + 1 ≠ s then some (some (buf.set v (b + 1)))
      else if b < n ∧ b + 1 < n then some (some (buf.set v (b + 2)))
      else
        match vars with
        | [] => some none
        | _ :: _ => incrementChanging numLabels state vars (buf.set v (if s = 0 then 1 else 0))
    | _, _, _ => none

/-- movemaker.hxx 469-601 `moveOptimallyWithAllLabelsChanging`. -/
def moveOptimallyChanging (o : InvOperation V) (bop : V → V → Bool) (reevaluate : V → Bool) (m : Movemaker V)
    (vars : List Nat) : Option (V × Movemaker V) :=
  match touched m vars [] with
  | none => none
  | some fs =>
    match evaluateFactors o m.gm m.state fs o.neutral, initChanging m.gm m.state vars 0 m.stateBuffer with
    | some initial, some (buf, true) =>
      match searchLoop o bop m.gm fs vars (incrementChanging m.gm.numLabels m.state vars) (searchFuel m.gm vars) buf initial
          (List.replicate vars.length 0) with
      | none => none
      | some (best, bestState, buf') => commit o bop reevaluate m vars initial best bestState buf'
    | some _, some (buf, false) => some (m.energy, { m with stateBuffer := buf })
    | _, _ => none

end Movemaker
end OpenGM
