import Verif.Model.GraphicalModel
/-
Model of include/opengm/inference/greedygremlin.hxx (class GreedyGremlin). The visitor is one that always returns ContinueInf (EmptyVisitor).
`none` is undefined behaviour. `marginal`, `factorMarginal` and `args` only return UNKNOWN, `reset` does nothing.
-/
namespace OpenGM
namespace Greedy
open Spec (Operation)
variable {V : Type}

/-- greedygremlin.hxx 93-101: constructor; the member `conf_`. -/
def construct (gm : GM V) : List Nat := List.replicate gm.numberOfVariables 0

/-- greedygremlin.hxx 128-133: local variables of `infer`, and `conf_`. -/
structure St where
  conf : List Nat
  color : List Bool
  waiting : List Nat
  first : Nat
  last : Nat

/-- greedygremlin.hxx 143-149: are all variables coloured? -/
def allColored (color : List Bool) : List Nat → Option Bool
  | [] => some true
  | w :: ws =>
    match color[w]? with
    | none => none
    | some false => some false
    | some true => allColored color ws

/-- greedygremlin.hxx 151-158: the labels of the variables of the factor, and the position `p` of the variable, which has no value before. -/
def fillLabels (conf : List Nat) (var : Nat) : List Nat → Nat → Option Nat → List Nat → Option (Option Nat × List Nat)
  | [], _, p, l => some (p, l)
  | w :: ws, i, p, l =>
    if w = var then fillLabels conf var ws (i + 1) (some i) (l ++ [0])
    else match conf[w]? with
      | none => none
      | some s => fillLabels conf var ws (i + 1) p (l ++ [s])

/-- greedygremlin.hxx 159-162: the values of the factor for all labels of the variable. -/
def addValues (o : Operation V) (gm : GM V) (f : FactorRec) (l : List Nat) (p : Nat) : List Nat → List V → Option (List V)
  | [], vals => some vals
  | s :: ss, vals =>
    match gm.callFactor f (l.set p s), vals[s]? with
    | some v, some a => addValues o gm f l p ss (vals.set s (o.op a v))
    | _, _ => none

/-- greedygremlin.hxx 141-164: the loop over the factors of the variable. -/
def factorLoop (o : Operation V) (gm : GM V) (conf : List Nat) (color : List Bool) (var n : Nat) : List Nat → List V → Option (List V)
  | [], vals => some vals
  | fi :: fs, vals =>
    match gm.factors[fi]? with
    | none => none
    | some f =>
      match allColored color (gm.scope f) with
      | none => none
      | some false => factorLoop o gm conf color var n fs vals
      | some true =>
        match fillLabels conf var (gm.scope f) 0 none [] with
        | some (some p, l) =>
          match addValues o gm f l p (List.range n) vals with
          | none => none
          | some vals => factorLoop o gm conf color var n fs vals
        | _ => none

/-- greedygremlin.hxx 167-170: the best label. -/
def bestLoop (bop : V → V → Bool) (vals : List V) : List Nat → Nat → Option Nat
  | [], c => some c
  | i :: is, c =>
    match vals[i]?, vals[c]? with
    | some a, some b => bestLoop bop vals is (if bop a b then i else c)
    | _, _ => none

/-- greedygremlin.hxx 174-179: the variables of one factor that are not coloured are put on the waiting list. -/
def pushVars : List Nat → List Bool → List Nat → Nat → Option (List Bool × List Nat × Nat)
  | [], color, waiting, last => some (color, waiting, last)
  | w :: ws, color, waiting, last =>
    match color[w]? with
    | none => none
    | some true => pushVars ws color waiting last
    | some false =>
      match setAt color w true, setAt waiting (last + 1) w with
      | some color, some waiting => pushVars ws color waiting (last + 1)
      | _, _ => none

/-- greedygremlin.hxx 173-180: the loop over the factors of the variable. -/
def pushLoop (gm : GM V) : List Nat → List Bool → List Nat → Nat → Option (List Bool × List Nat × Nat)
  | [], color, waiting, last => some (color, waiting, last)
  | fi :: fs, color, waiting, last =>
    match gm.factors[fi]? with
    | none => none
    | some f =>
      match pushVars (gm.scope f) color waiting last with
      | none => none
      | some (color, waiting, last) => pushLoop gm fs color waiting last

/-- greedygremlin.hxx 137-184: one pass through the loop. -/
def step (o : Operation V) (bop : V → V → Bool) (gm : GM V) (st : St) : Option St :=
  match st.waiting[st.first]? with
  | none => none
  | some var =>
    match gm.numLabels[var]?, gm.factorsOfVariable var with
    | some n, some fs =>
      match factorLoop o gm st.conf st.color var n fs (List.replicate n o.neutral), st.conf[var]? with
      | some vals, some c =>
        match bestLoop bop vals (List.range vals.length) c with
        | none => none
        | some c =>
          match setAt st.conf var c, pushLoop gm fs st.color st.waiting st.last with
          | some conf, some (color, waiting, last) => some ⟨conf, color, waiting, st.first + 1, last⟩
          | _, _ => none
      | _, _ => none
    | _, _ => none

/-- greedygremlin.hxx 135: the loop. The counter bounds the number of passes, `none` when it runs out. -/
def loop (o : Operation V) (bop : V → V → Bool) (gm : GM V) : Nat → St → Option St
  | 0, _ => none
  | k + 1, st =>
    if st.first < st.waiting.length then
      match step o bop gm st with
      | none => none
      | some st => loop o bop gm k st
    else some st

/-- greedygremlin.hxx 121-189 `infer`: the new `conf_`. -/
def infer (o : Operation V) (bop : V → V → Bool) (gm : GM V) (conf : List Nat) : Option (List Nat) :=
  match setAt (List.replicate gm.numberOfVariables 0) 0 0, setAt (List.replicate gm.numberOfVariables false) 0 true with
  | some waiting, some color => (loop o bop gm (waiting.length + 1) ⟨conf, color, waiting, 0, 0⟩).map St.conf
  | _, _ => none

/-- greedygremlin.hxx 191-202 `arg`: the labeling, and whether the result is NORMAL (otherwise UNKNOWN). -/
def arg (conf : List Nat) (n : Nat) : List Nat × Bool := if n = 1 then (conf, true) else ([], false)

end Greedy
end OpenGM
