import Verif.Model.AlphaExpansion
/-
Model of include/opengm/inference/alphabetaswap.hxx (class AlphaBetaSwap) with INF = GraphCut<GM, ACC, MINSTCUT>, ACC Minimizer or Maximizer. The operation of the graphical
model is the sum. A visitor is any sequence of answers: `visit k` says whether the `k`-th call asks to stop. `none` is an access out of range. Assertions are compiled out.

Values form a linearly ordered commutative ring. `label_` always has numberOfVariables() entries. `parameter_.parameter_` is never used by the code: the solver gets its default
parameters (scale 1) and the tolerance 0.
-/
namespace OpenGM
namespace AlphaBetaSwap
open Spec (Network sumOp)
open GraphCut (FactorView Acc)
variable {V : Type} [CommRing V] [LinearOrder V]

/-- alphabetaswap.hxx 64-69: data members; `maxNumberOfIterations` is the parameter. -/
structure ABS (V : Type) where
  gm : GM V
  maxNumberOfIterations : Nat
  label : List Nat
  alpha : Nat
  beta : Nat
  maxState : Nat

/-- alphabetaswap.hxx 110-133: the constructor. -/
def construct (gm : GM V) (maxNumberOfIterations : Nat) : Outcome (Option (ABS V)) Unit :=
  if gm.factors.any (fun f => decide (2 < f.visSize)) then .throw none
  else .ok () (some ⟨gm, maxNumberOfIterations, List.replicate gm.numberOfVariables 0, 0, 0, AlphaExpansion.maxStateOf gm⟩)

/-- alphabetaswap.hxx 78-82 `reset` -/
def reset (s : ABS V) : ABS V := { s with alpha := 0, beta := 0, label := List.replicate s.label.length 0 }

/-- alphabetaswap.hxx 135-147 `setStartingPoint` -/
def setStartingPoint (s : ABS V) (l : List Nat) : Option (ABS V) :=
  if s.gm.numberOfVariables ≤ l.length then some { s with label := l.take s.gm.numberOfVariables } else none

/-- alphabetaswap.hxx 84-96 `increment` (called for maxState_ at least 2 only). -/
def increment (maxState alpha beta : Nat) : Nat × Nat :=
  if maxState ≤ beta + 1 then
    (if maxState - 1 ≤ alpha + 1 then (0, 1) else (alpha + 1, alpha + 2))
  else (alpha, beta + 1)

/-- `label_[i] == alpha_ || label_[i] == beta_` -/
def selected (alpha beta l : Nat) : Bool := l == alpha || l == beta

/-- alphabetaswap.hxx 222-228: number the selected variables in `variable2Node` (the other entries keep their old values). -/
def nodes (alpha beta : Nat) : List Nat → List Nat → Nat → Option (List Nat × Nat)
  | [], _, counter => some ([], counter)
  | _ :: _, [], _ => none
  | l :: ls, o :: os, counter =>
    if selected alpha beta l then
      match nodes alpha beta ls os (counter + 1) with
      | none => none
      | some (r, c) => some (counter :: r, c)
    else
      match nodes alpha beta ls os counter with
      | none => none
      | some (r, c) => some (o :: r, c)

/-- alphabetaswap.hxx 149-164 `addUnary`: the factor passed to the binary solver. -/
def addUnary (var : Nat) (v0 v1 : V) : FactorView V := AlphaExpansion.unary var v0 v1

/-- alphabetaswap.hxx 166-187 `addPairwise` -/
def addPairwise (var1 var2 : Nat) (v0 v1 v2 v3 : V) : FactorView V := AlphaExpansion.pairwise var1 var2 v0 v1 v2 v3

/-- alphabetaswap.hxx 247-277: the factors that one factor of the model leads to. -/
def swapFactor (gm : GM V) (label variable2Node : List Nat) (alpha beta : Nat) (f : FactorRec) : Option (List (FactorView V)) :=
  if f.visSize = 1 then
    match gm.visAt f 0 with
    | none => none
    | some var =>
      match label[var]?, variable2Node[var]? with
      | some l, some node =>
        if selected alpha beta l then
          match gm.callFactor f [alpha], gm.callFactor f [beta] with
          | some a, some b => some [addUnary node a b]
          | _, _ => none
        else some []
      | _, _ => none
  else if f.visSize = 2 then
    match gm.visAt f 0, gm.visAt f 1 with
    | some var1, some var2 =>
      match label[var1]?, label[var2]?, variable2Node[var1]?, variable2Node[var2]? with
      | some l1, some l2, some node1, some node2 =>
        if selected alpha beta l1 && selected alpha beta l2 then
          match gm.callFactor f [alpha, alpha], gm.callFactor f [alpha, beta], gm.callFactor f [beta, alpha], gm.callFactor f [beta, beta] with
          | some aa, some ab, some ba, some bb => some [addPairwise node1 node2 aa ab ba bb]
          | _, _, _, _ => none
        else if selected alpha beta l1 then
          match gm.callFactor f [alpha, l2], gm.callFactor f [beta, l2] with
          | some ax, some bx => some [addUnary node1 ax bx]
          | _, _ => none
        else if selected alpha beta l2 then
          match gm.callFactor f [l1, alpha], gm.callFactor f [l1, beta] with
          | some xa, some xb => some [addUnary node2 xa xb]
          | _, _ => none
        else some []
      | _, _, _, _ => none
    | _, _ => none
  else some []

/-- alphabetaswap.hxx 247-277: all factors. -/
def swapFactors (gm : GM V) (label variable2Node : List Nat) (alpha beta : Nat) : List FactorRec → Option (List (FactorView V))
  | [] => some []
  | f :: fs =>
    match swapFactor gm label variable2Node alpha beta f, swapFactors gm label variable2Node alpha beta fs with
    | some vs, some rest => some (vs ++ rest)
    | _, _ => none

/-- alphabetaswap.hxx 282-291: the labels after the move. -/
def applySwap (alpha beta : Nat) (state : List Nat) : List Nat → List Nat → Option (List Nat)
  | [], _ => some []
  | _ :: _, [] => none
  | l :: ls, node :: rest =>
    match (if selected alpha beta l then (state[node]?).map (fun s => if s = 0 then alpha else beta) else some l), applySwap alpha beta state ls rest with
    | some l', some ls' => some (l' :: ls')
    | _, _ => none

/-- alphabetaswap.hxx 221-291: one swap of the labels alpha and beta. The result is `variable2Node` and the new labels (`none`: no variable has one of the labels, `continue`). -/
def swap (solver : Network V → List Bool → List Bool) (acc : Acc) (gm : GM V) (label variable2Node : List Nat) (alpha beta : Nat) :
    Option (List Nat × Option (List Nat)) :=
  match nodes alpha beta label variable2Node 0 with
  | none => none
  | some (v2n, counter) =>
    if counter = 0 then some (v2n, none)
    else
      match swapFactors gm label v2n alpha beta gm.factors with
      | none => none
      | some vs =>
        match GraphCut.addFactors acc (GraphCut.start counter 0 1 0) vs with
        | .ok _ g =>
          match GraphCut.infer solver g with
          | none => none
          | some g' =>
            match GraphCut.arg g' [] 1 with
            | none => none
            | some (_, state) => (applySwap alpha beta state label v2n).map (fun l => (v2n, some l))
        | _ => none

/-- `AccumulationType::bop(a, b)` -/
def better (acc : Acc) (a b : V) : Bool := if acc = .minimizer then decide (a < b) else decide (b < a)

/-- alphabetaswap.hxx 219-302: the loop of `infer`; `it` iterations are left; `k` counts the calls of the visitor. The labelings that the visitor sees are collected.
`countUnchanged` is never set back. -/
def loop (solver : Network V → List Bool → List Bool) (acc : Acc) (visit : Nat → Bool) :
    Nat → Nat → V → List Nat → Nat → ABS V → Option (ABS V × List (List Nat))
  | 0, _, _, _, _, s => some (s, [])
  | it + 1, countUnchanged, energy, variable2Node, k, s =>
    if countUnchanged < s.maxState * (s.maxState - 1) / 2 then
      let ab := increment s.maxState s.alpha s.beta
      match swap solver acc s.gm s.label variable2Node ab.1 ab.2 with
      | none => none
      | some (v2n, none) => loop solver acc visit it countUnchanged energy v2n k { s with alpha := ab.1, beta := ab.2 }
      | some (v2n, some label) =>
        match s.gm.evaluate (sumOp V) label with
        | none => none
        | some energy2 =>
          if visit k then some ({ s with alpha := ab.1, beta := ab.2, label := label }, [label])
          else
            match (if better acc energy2 energy then loop solver acc visit it countUnchanged energy2 v2n (k + 1) { s with alpha := ab.1, beta := ab.2, label := label }
              else loop solver acc visit it (countUnchanged + 1) energy v2n (k + 1) { s with alpha := ab.1, beta := ab.2, label := label }) with
            | none => none
            | some (s', seen) => some (s', label :: seen)
    else some (s, [])

/-- alphabetaswap.hxx 195-305 `infer` -/
def infer (solver : Network V → List Bool → List Bool) (acc : Acc) (visit : Nat → Bool) (s : ABS V) : Option (ABS V × List (List Nat)) :=
  match s.gm.evaluate (sumOp V) s.label with
  | none => none
  | some energy => loop solver acc visit s.maxNumberOfIterations 0 energy (List.replicate s.gm.numberOfVariables 0) 0 s

/-- alphabetaswap.hxx 307-319 `arg` for n = 1 -/
def arg (s : ABS V) : List Nat := s.label

end AlphaBetaSwap
end OpenGM
