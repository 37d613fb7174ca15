import Verif.Model.MessagePassing
import Verif.Model.FactorOps
import Verif.Spec.Tuples
/-
Model of opengm/inference/inference.hxx: `constrainedOptimum`, `modeFromMarginal`, `modeFromFactorMarginal` (the labeling of an inference algorithm from its marginals),
and messagepassing.hxx `arg`. The virtual functions `marginal` and `factorMarginal` are arguments (the values by label, first label fastest); that they end with a
return code other than NORMAL is not modelled. The label "maximum" that stands for "not set" is `none`.
-/
namespace OpenGM
namespace Mode
open FactorOps Marray Spec
variable {V : Type}

/-- The types and operations of the `Inference` template: the operation `o`, the comparison `bop` of the accumulator, its neutral element, `T()`, 1.0, and the
test fabs(a - b) < 0.00001. -/
structure Ops (V : Type) where
  o : Operation V
  bop : V → V → Bool
  accNeutral : V
  zero : V
  one : V
  close : V → V → Bool

/-- inference.hxx: what `Inference` sees of the algorithm: `graphicalModel()`, `marginal`, `factorMarginal`. -/
structure Base (V : Type) where
  gm : GM V
  marginal : Nat → Option (List V)
  factorMarginal : Nat → Option (List V)

/-- inference.hxx 343-351, the loop of `modeFromMarginal`: the best label so far. -/
def bestFrom (bop : V → V → Bool) (out : List V) : Nat → Nat → V × Nat → Option (V × Nat)
  | 0, _, s => some s
  | n + 1, i, s =>
    match out[i]? with
    | none => none
    | some b => bestFrom bop out n (i + 1) (if bop b s.1 then (b, i) else s)

/-- inference.hxx 330-355 `modeFromMarginal`, for the variables `vs` still to do. -/
def modeFromMarginalLoop (q : Ops V) (m : Base V) : List Nat → Option (List Nat)
  | [] => some []
  | v :: vs =>
    match m.marginal v, m.gm.numLabels[v]? with
    | some out, some n =>
      match out[0]? with
      | none => none
      | some b =>
        match bestFrom q.bop out (n - 1) 1 (b, 0) with
        | none => none
        | some s => (modeFromMarginalLoop q m vs).map (fun ls => s.2 :: ls)
    | _, _ => none

/-- inference.hxx 330-355 `modeFromMarginal`. -/
def modeFromMarginal (q : Ops V) (m : Base V) : Option (List Nat) := modeFromMarginalLoop q m (List.range m.gm.numLabels.length)

/-- inference.hxx 372-389, the loop of `modeFromFactorMarginal`: value, label, unique. -/
def uniqueFrom (q : Ops V) (out : List V) : Nat → Nat → V × Nat × Bool → Option (V × Nat × Bool)
  | 0, _, s => some s
  | n + 1, i, s =>
    match out[i]? with
    | none => none
    | some b => uniqueFrom q out n (i + 1) (if q.close b s.1 then (s.1, s.2.1, false) else if q.bop b s.1 then (b, i, true) else s)

/-- inference.hxx 366-394: the variables whose best label is clearly better than the other labels, with this label. -/
def knownLoop (q : Ops V) (m : Base V) : List Nat → Option (List (Nat × Nat))
  | [] => some []
  | v :: vs =>
    match m.marginal v, m.gm.numLabels[v]? with
    | some out, some n =>
      match out[0]? with
      | none => none
      | some b =>
        match uniqueFrom q out (n - 1) 1 (b, 0, true) with
        | none => none
        | some s => (knownLoop q m vs).map (fun ks => if s.2.2 then (v, s.2.1) :: ks else ks)
    | _, _ => none

/-- A factor with the values `values`, first label fastest. -/
def tableOf (shape : List Nat) (values : List V) : FactorOps.Fn V := ⟨shape, fun c => ((Spec.allTuples shape).zip values).lookup (c.take shape.length)⟩

/-- The IndependentFactor `out` on the variables `vars` after `marginal` or `factorMarginal`. -/
def outFactor (q : Ops V) (gm : GM V) (vars : List Nat) (values : List V) : Option (IFactor V) :=
  match vars.mapM (fun v => gm.numLabels[v]?) with
  | none => none
  | some shape => assignFactor q.zero vars (tableOf shape values)

/-- inference.hxx 165-172: the first variable of the factor that is not set. -/
def firstUnset (conf : List (Option Nat)) : List Nat → Option (Option Nat)
  | [] => some none
  | w :: ws =>
    match conf[w]? with
    | none => none
    | some none => some (some w)
    | some (some _) => firstUnset conf ws

/-- inference.hxx 188-197: the variables of the factor other than `var2`: those that are set, with their labels, and those that are not. -/
def splitKnown (conf : List (Option Nat)) (var2 : Nat) : List Nat → Option (List (Nat × Nat) × List Nat)
  | [] => some ([], [])
  | w :: ws =>
    match splitKnown conf var2 ws with
    | none => none
    | some s =>
      if w ≠ var2 then
        match conf[w]? with
        | none => none
        | some (some l) => some ((w, l) :: s.1, s.2)
        | some none => some (s.1, w :: s.2)
      else some s

/-- inference.hxx 180-202: the body of the loop over the factors of `var2`, for factor `f`: the marginal of the factor given the labels that are set, combined into `t`. -/
def condition (q : Ops V) (m : Base V) (conf : List (Option Nat)) (var2 f : Nat) (t : IFactor V) : Option (IFactor V) :=
  match m.gm.factors[f]?, m.factorMarginal f with
  | some rec, some values =>
    match outFactor q m.gm (m.gm.scope rec) values, splitKnown conf var2 (m.gm.scope rec) with
    | some out, some s =>
      match fixVariables q.zero out (s.1.map (fun e => e.1)) (s.1.map (fun e => e.2)) with
      | none => none
      | some out =>
        match (if s.2.length > 0 then (accumulateInplace q.zero (minOp q.bop) q.accNeutral out.fn out.vars s.2).map (fun e => (⟨e.2, e.1⟩ : IFactor V)) else some out) with
        | none => none
        | some out => (binaryInplace q.zero q.o.op t.fn (ofArr out.fn) t.vars out.vars).map (fun e => ⟨e.2, e.1⟩)
    | _, _ => none
  | _, _ => none

/-- inference.hxx 177-203: the loop over the factors of `var2`; only `f` is not skipped. -/
def conditionLoop (q : Ops V) (m : Base V) (conf : List (Option Nat)) (var2 f : Nat) : List Nat → IFactor V → Option (IFactor V)
  | [], t => some t
  | g :: gs, t => if g ≠ f then conditionLoop q m conf var2 f gs t else (condition q m conf var2 g t).bind (conditionLoop q m conf var2 f gs)

/-- inference.hxx 204-207, 220-223: `accumulate(value, state)` and `state[0]`. -/
def bestLabel (q : Ops V) (t : IFactor V) : Option Nat :=
  match accumulateAllState q.bop (minOp q.bop) q.accNeutral (ofArr t.fn) with
  | none => none
  | some s => s.2[0]?

/-- inference.hxx 175-207: the label for `var2`, from the factor `f`. The factor `t` starts as the constant 1.0 (graphicalmodel_factor.hxx 967-971). -/
def chooseLabel (q : Ops V) (m : Base V) (conf : List (Option Nat)) (var2 f : Nat) : Option Nat :=
  match m.gm.adj[var2]? with
  | none => none
  | some fs => (conditionLoop q m conf var2 f fs ⟨[], .scalar q.one defaultOrder⟩).bind (bestLabel q)

/-- inference.hxx 145-149: the local variables `conf`, `numberOfFixedVariables`, `waitingVariables` (back of the vector first). -/
structure Search where
  conf : List (Option Nat)
  fixed : Nat
  waiting : List Nat

/-- inference.hxx 164-211: the loop over the factors of `var`. -/
def visitFactors (q : Ops V) (m : Base V) (var : Nat) : List Nat → Search → Option Search
  | [], s => some s
  | f :: fs, s =>
    match m.gm.factors[f]? with
    | none => none
    | some rec =>
      match firstUnset s.conf (m.gm.scope rec) with
      | none => none
      | some none => visitFactors q m var fs s
      | some (some var2) =>
        if var2 ≠ var then
          match chooseLabel q m s.conf var2 f with
          | none => none
          | some l => visitFactors q m var fs ⟨s.conf.set var2 (some l), s.fixed + 1, var2 :: s.waiting⟩
        else visitFactors q m var fs s

/-- inference.hxx 159-212: the inner loop. The first argument bounds the number of rounds; `none` if it is too small. -/
def popLoop (q : Ops V) (m : Base V) : Nat → Search → Option Search
  | 0, s => if s.waiting.isEmpty || decide (m.gm.numLabels.length ≤ s.fixed) then some s else none
  | k + 1, s =>
    match s.waiting with
    | [] => some s
    | var :: rest =>
      if s.fixed < m.gm.numLabels.length then
        match m.gm.adj[var]? with
        | none => none
        | some fs => (visitFactors q m var fs { s with waiting := rest }).bind (popLoop q m k)
      else some s

/-- inference.hxx 213-225: a variable that is not set gets the best label of its marginal. -/
def setFromMarginal (q : Ops V) (m : Base V) (v : Nat) (s : Search) : Option Search :=
  match s.conf[v]? with
  | none => none
  | some (some _) => some s
  | some none =>
    match m.marginal v with
    | none => none
    | some values =>
      match (outFactor q m.gm [v] values).bind (bestLabel q) with
      | none => none
      | some l => some { s with conf := s.conf.set v (some l), waiting := v :: s.waiting }

/-- inference.hxx 158-227: the outer loop over `variableId`, for the variables still to do. -/
def outerLoop (q : Ops V) (m : Base V) : List Nat → Search → Option Search
  | [], s => some s
  | v :: vs, s =>
    if s.fixed < m.gm.numLabels.length then
      match popLoop q m (s.waiting.length + m.gm.numLabels.length) s with
      | none => none
      | some s => (setFromMarginal q m v s).bind (outerLoop q m vs)
    else some s

/-- inference.hxx 151-157: the given labels. -/
def giveLabels (n : Nat) : List (Nat × Nat) → Search → Option Search
  | [], s => some s
  | (v, l) :: known, s => if v < n then giveLabels n known ⟨s.conf.set v (some l), s.fixed + 1, v :: s.waiting⟩ else none

/-- inference.hxx 137-229 `constrainedOptimum`; the result is the vector `conf` (`none`: the maximum label). -/
def constrainedOptimum (q : Ops V) (m : Base V) (known : List (Nat × Nat)) : Option (List (Option Nat)) :=
  match giveLabels m.gm.numLabels.length known ⟨List.replicate m.gm.numLabels.length none, 0, []⟩ with
  | none => none
  | some s => (outerLoop q m (List.range m.gm.numLabels.length) s).map (fun s => s.conf)

/-- inference.hxx 357-396 `modeFromFactorMarginal`. -/
def modeFromFactorMarginal (q : Ops V) (m : Base V) : Option (List (Option Nat)) :=
  match knownLoop q m (List.range m.gm.numLabels.length) with
  | none => none
  | some known => constrainedOptimum q m known

/-- messagepassing.hxx 621-640 `arg` for N = 1 (it throws for other N). -/
def arg (q : Ops V) (r : MessagePassing.Rules V) (s : MessagePassing.MP V) : Option (List (Option Nat)) :=
  modeFromFactorMarginal q ⟨s.gm, MessagePassing.marginal r s, MessagePassing.factorMarginal r s⟩

end Mode
end OpenGM
