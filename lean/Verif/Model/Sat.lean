import Verif.Model.GraphicalModel
/-
Model of include/opengm/inference/sat.hxx (class SAT): deciding models with Boolean factors of two binary variables.

Simplifications: the Boost function `strong_components` is a parameter: any function that gives the vertices of a directed graph numbers (its contract is in Spec/TwoSat.lean).
Vertices are natural numbers (`int` in the code: no overflow). A visitor is the list of the occasions (begin, end) at which it reads `value()`, as the visitors of
visitors/visitors.hxx 58-59 and 163-164 do. Not modelled: the assertions of the constructor.
-/
namespace OpenGM
namespace Sat

/-- sat.hxx 61 `component_`. -/
structure Solver where
  component : List Nat

/-- 64-79: the constructor. -/
def Solver.make : Solver := ⟨[]⟩

/-- A directed graph: the pairs (source, target), for 131-132 `boost::add_edge`. -/
abbrev Edges := List (Nat × Nat)

/-- 127-130: the vertex for a variable and a factor of `numberOfVariables`. -/
def vertex (gm : GM Bool) (v l : Nat) : Nat := v + l * gm.numberOfVariables

/-- 126-133: the body of the loops over `vec`, for one pair of labels. -/
def addClause (gm : GM Bool) (f : FactorRec) (a b : Nat) (g : Edges) : Option Edges :=
  match gm.callFactor f [a, b], gm.visAt f 0, gm.visAt f 1 with
  | some true, some _, some _ => some g
  | some false, some u, some v =>
    let v1 := vertex gm u (1 - a)
    let nv1 := vertex gm u (0 + a)
    let v2 := vertex gm v (1 - b)
    let nv2 := vertex gm v (0 + b)
    some (g ++ [(nv1, v2)] ++ [(nv2, v1)])
  | _, _, _ => none

/-- 123-135: the loops over `vec` for one factor. -/
def addFactorEdges (gm : GM Bool) (f : FactorRec) (g : Edges) : Option Edges :=
  (addClause gm f 0 0 g).bind (fun g => (addClause gm f 0 1 g).bind (fun g => (addClause gm f 1 0 g).bind (addClause gm f 1 1)))

/-- 119-136: the loop over the factors. -/
def buildGraph (gm : GM Bool) : List FactorRec → Edges → Outcome Unit Edges
  | [], g => .ok g ()
  | f :: fs, g =>
    if f.visSize ≠ 2 then .throw ()
    else
      match addFactorEdges gm f g with
      | none => .ub
      | some g' => buildGraph gm fs g'

/-- 147-153: the loop of `value`. -/
def valueLoop (component : List Nat) (n : Nat) : List Nat → Bool → Option Bool
  | [], satisfied => some satisfied
  | i :: is, satisfied =>
    match component[i]?, component[i + n]? with
    | some c, some d => valueLoop component n is (if c = d then false else satisfied)
    | _, _ => none

/-- 143-154 `value`. -/
def Solver.value (gm : GM Bool) (s : Solver) : Option Bool := valueLoop s.component gm.numberOfVariables (List.range gm.numberOfVariables) true

/-- A visitor that reads the value when it is called, or one that does not. -/
structure Visitor where
  readsAtBegin : Bool
  readsAtEnd : Bool

/-- visitors.hxx 21-36 `EmptyVisitor`. -/
def Visitor.empty : Visitor := ⟨false, false⟩

/-- visitors.hxx 51-73 `VerboseVisitor` and 113-284 `TimingVisitor`. -/
def Visitor.verbose : Visitor := ⟨true, true⟩

/-- 107-141 `infer`; `scc` stands for `strong_components` (number of vertices, edges). The state after a throw is the solver as it was. -/
def Solver.infer (scc : Nat → Edges → List Nat) (gm : GM Bool) (visitor : Visitor) (s : Solver) : Outcome Solver Unit :=
  if visitor.readsAtBegin && (s.value gm).isNone then .ub
  else
    match buildGraph gm gm.factors [] with
    | .ub => .ub
    | .throw _ => .throw s
    | .ok g _ =>
      let s' : Solver := ⟨scc (gm.numberOfVariables * 2) g⟩
      if visitor.readsAtEnd && (s'.value gm).isNone then .ub else .ok () s'

end Sat
end OpenGM
