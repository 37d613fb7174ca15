import Verif.Model.FactorGraph
/-
Model of FactorGraph::isAcyclic (factorgraph.hxx 337-385). In all functions the outer `none` is undefined behaviour
(index out of range) or a loop that has not ended within the fuel; the inner `none` is `return false`.
-/
namespace OpenGM.FG

/-- factorgraph.hxx 356-365: the loop over the variables of the factor `f` just taken from the queue. -/
def scanVariables (g : FG) (ff : List Nat) (f : Nat) : List Nat → List Nat → List Nat → Option (Option (List Nat × List Nat))
  | [], vf, vq => some (some (vf, vq))
  | v :: vs, vf, vq =>
    match vf[v]? with
    | none => none
    | some x =>
      if x = g.scopes.length then scanVariables g ff f vs (vf.set v f) (vq ++ [v])
      else
        match ff[f]? with
        | none => none
        | some y => if y ≠ v then some none else scanVariables g ff f vs vf vq

/-- factorgraph.hxx 353-366: `while(!factorQueue.empty())`; nothing is pushed to factorQueue here, so the loop runs once
through the queue. -/
def drainFactors (g : FG) (ff : List Nat) : List Nat → List Nat → List Nat → Option (Option (List Nat × List Nat))
  | [], vf, vq => some (some (vf, vq))
  | f :: fq, vf, vq =>
    match g.scopes[f]? with
    | none => none
    | some s =>
      match scanVariables g ff f s vf vq with
      | some (some (vf', vq')) => drainFactors g ff fq vf' vq'
      | r => r

/-- factorgraph.hxx 370-379: the loop over the factors of the variable `v` just taken from the queue. -/
def scanFactors (g : FG) (vf : List Nat) (v : Nat) : List Nat → List Nat → List Nat → Option (Option (List Nat × List Nat))
  | [], ff, fq => some (some (ff, fq))
  | f :: fs, ff, fq =>
    match ff[f]? with
    | none => none
    | some x =>
      if x = g.numVars then scanFactors g vf v fs (ff.set f v) (fq ++ [f])
      else
        match vf[v]? with
        | none => none
        | some y => if y ≠ f then some none else scanFactors g vf v fs ff fq

/-- factorgraph.hxx 367-380: `while(!variableQueue.empty())`. -/
def drainVariables (g : FG) (vf : List Nat) : List Nat → List Nat → List Nat → Option (Option (List Nat × List Nat))
  | [], ff, fq => some (some (ff, fq))
  | v :: vq, ff, fq =>
    match g.adj[v]? with
    | none => none
    | some s =>
      match scanFactors g vf v s ff fq with
      | some (some (ff', fq')) => drainVariables g vf vq ff' fq'
      | r => r

/-- factorgraph.hxx 352-381: the outer `while(!factorQueue.empty())`, at most `fuel` rounds. -/
def rounds (g : FG) : Nat → List Nat → List Nat → List Nat → Option (Option (List Nat × List Nat))
  | _, ff, vf, [] => some (some (ff, vf))
  | 0, _, _, _ :: _ => none
  | fuel + 1, ff, vf, f :: fq =>
    match drainFactors g ff (f :: fq) vf [] with
    | some (some (vf', vq)) =>
      match drainVariables g vf' vq ff [] with
      | some (some (ff', fq')) => rounds g fuel ff' vf' fq'
      | some none => some none
      | none => none
    | some none => some none
    | none => none

/-- factorgraph.hxx 348-383: `for(F = 0; F < numberOfFactors(); ++F)`. -/
def acyclicLoop (g : FG) : List Nat → List Nat → List Nat → Option Bool
  | [], _, _ => some true
  | F :: Fs, ff, vf =>
    match ff[F]? with
    | none => none
    | some x =>
      if x = g.numVars then
        match rounds g (g.scopes.length + 1) (ff.set F (g.numVars + 1)) vf [F] with
        | some (some (ff', vf')) => acyclicLoop g Fs ff' vf'
        | some none => some false
        | none => none
      else acyclicLoop g Fs ff vf

/-- factorgraph.hxx 339-385 `isAcyclic`. -/
def isAcyclic (g : FG) : Option Bool :=
  acyclicLoop g (List.range g.scopes.length) (List.replicate g.scopes.length g.numVars)
    (List.replicate g.numVars g.scopes.length)

end OpenGM.FG
