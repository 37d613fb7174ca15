import Mathlib.Algebra.Order.Ring.Defs
/-
Model of include/opengm/inference/fix-fusion/higher-order-energy.hpp: class HigherOrderEnergy (AddVar, AddVars, AddTerm, AddUnaryTerm, ToQuadratic, Clear), with a quadratic representation that
records the calls it gets (fix-fusion/quadratic-rep.hpp 19-36).

`none` is undefined behaviour (index out of range, more than `D` variables) or a failed `assert`. Values are elements of an ordered ring. Variables (`VarId`, an int) are natural numbers.
Not modelled: PrintTerms, ToString, RemoveTerm, _ReportMultilinearStats (not defined or only output), and the member `_positiveTerms`, which is never read.
-/
namespace OpenGM.Hoe
variable {R : Type} [CommRing R] [LinearOrder R]

/-- higher-order-energy.hpp 94-112 `Term`: the degree is the length of `vars`. -/
structure HTerm (R : Type) where
  coeff : R
  vars : List Nat

/-- higher-order-energy.hpp 118-131 `VarRecord`. -/
structure VarRecord (R : Type) where
  id : Nat
  higherOrderTerms : Int
  quadraticTerms : Int
  sumDegrees : Int
  terms : List (HTerm R)
  coeff : R

/-- higher-order-energy.hpp 133, 148-151: data members. -/
structure HOE (R : Type) where
  constantTerm : R
  varCounter : Nat
  varRecords : List (VarRecord R)

/-- higher-order-energy.hpp 154-157: constructor. -/
def construct : HOE R := ⟨0, 0, []⟩

/-- higher-order-energy.hpp 160-166 `AddVar`. -/
def addVar (h : HOE R) : Nat × HOE R := (h.varCounter, { h with varCounter := h.varCounter + 1, varRecords := h.varRecords ++ [⟨h.varCounter, 0, 0, 0, [], 0⟩] })

/-- higher-order-energy.hpp 168-175 `AddVars`; the answer is the first variable. -/
def addVars (h : HOE R) : Nat → Nat × HOE R
  | 0 => (h.varCounter, h)
  | n + 1 => (h.varCounter, (addVars (addVar h).2 n).2)

/-- higher-order-energy.hpp 317-321: the loop of `Compare` for the same degree. -/
def compareVars : List Nat → List Nat → Int
  | a :: as, b :: bs => if a ≠ b then (if a < b then -1 else 1) else compareVars as bs
  | _, _ => 0

/-- higher-order-energy.hpp 311-322 `Compare`. -/
def compare (v1 v2 : List Nat) : Int := if v1.length < v2.length then -1 else if v1.length > v2.length then 1 else compareVars v1 v2

/-- higher-order-energy.hpp 190-212: the search in the list of terms and the change of it; the answer is also whether the term was there. -/
def insertTerm (coeff : R) (vars : List Nat) : List (HTerm R) → List (HTerm R) × Bool
  | [] => ([⟨coeff, vars⟩], false)
  | u :: us =>
    if compare vars u.vars = 0 then ({ u with coeff := u.coeff + coeff } :: us, true)
    else if compare vars u.vars < 0 then (⟨coeff, vars⟩ :: u :: us, false)
    else (u :: (insertTerm coeff vars us).1, (insertTerm coeff vars us).2)

/-- higher-order-energy.hpp 189-212: a term of degree 2 or more, in the record of its first variable. -/
def addToRecord (r : VarRecord R) (coeff : R) (vars : List Nat) : VarRecord R :=
  let (terms, found) := insertTerm coeff vars r.terms
  if found then { r with terms := terms }
  else if vars.length > 2 then { r with terms := terms, higherOrderTerms := r.higherOrderTerms + 1, sumDegrees := r.sumDegrees + vars.length }
  else { r with terms := terms, quadraticTerms := r.quadraticTerms + 1 }

/-- higher-order-energy.hpp 177-217 `AddTerm`. -/
def addTerm (D : Nat) (h : HOE R) (coeff : R) (vars : List Nat) : Option (HOE R) :=
  if coeff = 0 then some h
  else
    match vars with
    | [] => some { h with constantTerm := h.constantTerm + coeff }
    | [v] =>
      match h.varRecords[v]? with
      | none => none
      | some r => some { h with varRecords := h.varRecords.set v { r with coeff := r.coeff + coeff } }
    | v :: w :: vs =>
      if (v :: w :: vs).length ≤ D then
        match h.varRecords[v]? with
        | none => none
        | some r => some { h with varRecords := h.varRecords.set v (addToRecord r coeff (v :: w :: vs)) }
      else none

/-- higher-order-energy.hpp 219-222 `AddUnaryTerm`. -/
def addUnaryTerm (h : HOE R) (v : Nat) (coeff : R) : Option (HOE R) :=
  match h.varRecords[v]? with
  | none => none
  | some r => some { h with varRecords := h.varRecords.set v { r with coeff := r.coeff + coeff } }

/-- higher-order-energy.hpp 250-256: a positive term is taken out of its record; `terms` are the others. -/
def eraseTerm (r : VarRecord R) (degree : Nat) (terms : List (HTerm R)) : VarRecord R :=
  if degree = 2 then { r with terms := terms, quadraticTerms := r.quadraticTerms - 1 }
  else { r with terms := terms, higherOrderTerms := r.higherOrderTerms - 1, sumDegrees := r.sumDegrees - degree }

/-- higher-order-energy.hpp 233-258: the loop over the terms of the record `varIndex`; `kept` are the terms before the iterator. A term whose second variable is `varIndex` again would change the list
during the loop; this is not modelled (`none`), and does not occur with increasing variables. -/
def elimTerms (D varIndex newPosVar : Nat) : List (HTerm R) → List (HTerm R) → R → HOE R → Option (R × HOE R)
  | [], _, positiveSum, h => some (positiveSum, h)
  | t :: ts, kept, positiveSum, h =>
    if t.coeff > 0 then
      match t.vars with
      | [] => none
      | _ :: rest =>
        if rest.head? = some varIndex then none
        else
          match addTerm D h t.coeff rest with
          | none => none
          | some h =>
            match addTerm D h (-t.coeff) (rest ++ [newPosVar]) with
            | none => none
            | some h =>
              match h.varRecords[varIndex]? with
              | none => none
              | some r =>
                elimTerms D varIndex newPosVar ts kept (positiveSum + t.coeff) { h with varRecords := h.varRecords.set varIndex (eraseTerm r t.vars.length (kept ++ ts)) }
    else elimTerms D varIndex newPosVar ts (kept ++ [t]) positiveSum h

/-- higher-order-energy.hpp 224-264 `_EliminatePositiveTerms`: the loop over the variables from `varIndex`, `k` left. -/
def elimLoop (D : Nat) : Nat → Nat → HOE R → Option (HOE R)
  | _, 0, h => some h
  | varIndex, k + 1, h =>
    let (newPosVar, h) := addVar h
    match h.varRecords[varIndex]? with
    | none => none
    | some vr =>
      match elimTerms D varIndex newPosVar vr.terms [] 0 h with
      | none => none
      | some (positiveSum, h) =>
        match addTerm D h positiveSum [vr.id, newPosVar] with
        | none => none
        | some h => elimLoop D (varIndex + 1) k h

def eliminatePositiveTerms (D : Nat) (h : HOE R) : Option (HOE R) := elimLoop D 0 h.varRecords.length h

/-- quadratic-rep.hpp 19-36: what a quadratic representation gets: the expected number of edges, the nodes, terms `(n, E0, E1)` and `(n1, n2, E00, E01, E10, E11)`. -/
structure QuadraticRep (R : Type) where
  maxEdgeNum : Int
  nodes : Nat
  unary : List (Nat × R × R)
  pairwise : List (Nat × Nat × R × R × R × R)

/-- An empty quadratic representation. -/
def QuadraticRep.empty : QuadraticRep R := ⟨0, 0, [], []⟩

/-- `AddUnaryTerm` and `AddPairwiseTerm`: the nodes must exist. -/
def QuadraticRep.addUnary (q : QuadraticRep R) (n : Nat) (e0 e1 : R) : Option (QuadraticRep R) :=
  if n < q.nodes then some { q with unary := q.unary ++ [(n, e0, e1)] } else none
def QuadraticRep.addPairwise (q : QuadraticRep R) (n1 n2 : Nat) (e00 e01 e10 e11 : R) : Option (QuadraticRep R) :=
  if n1 < q.nodes ∧ n2 < q.nodes then some { q with pairwise := q.pairwise ++ [(n1, n2, e00, e01, e10, e11)] } else none

/-- higher-order-energy.hpp 292-294: the edges to the node `w` for the variables of a term. -/
def edgesTo (coeff : R) (w : Nat) : List Nat → QuadraticRep R → Option (QuadraticRep R)
  | [], q => some q
  | v :: vs, q =>
    match q.addPairwise v w 0 0 0 coeff with
    | none => none
    | some q => edgesTo coeff w vs q

/-- higher-order-energy.hpp 287-296: one term. -/
def reduceTerm (t : HTerm R) (q : QuadraticRep R) : Option (QuadraticRep R) :=
  if t.vars.length = 2 then
    match t.vars with
    | v0 :: v1 :: _ => q.addPairwise v0 v1 0 0 0 t.coeff
    | _ => none
  else if t.coeff ≤ 0 then
    match edgesTo t.coeff q.nodes t.vars { q with nodes := q.nodes + 1 } with
    | none => none
    | some q' => q'.addUnary q.nodes 0 (t.coeff * (1 - (t.vars.length : R)))
  else none

/-- higher-order-energy.hpp 266-302 `_ReduceNegativeTerms`. -/
def reduceNegativeTerms (h : HOE R) (q : QuadraticRep R) : Option (QuadraticRep R) :=
  let expectedEdges := (h.varRecords.map (fun vr => vr.quadraticTerms + vr.sumDegrees)).sum
  let q := { q with maxEdgeNum := expectedEdges, nodes := q.nodes + h.varCounter }
  match h.varRecords.foldlM (fun q vr => vr.terms.foldlM (fun q t => reduceTerm t q) q) q with
  | none => none
  | some q => h.varRecords.foldlM (fun q vr => q.addUnary vr.id 0 vr.coeff) q

/-- higher-order-energy.hpp 304-309 `ToQuadratic`: the object afterwards, and the quadratic representation. -/
def toQuadratic (D : Nat) (h : HOE R) (q : QuadraticRep R) : Option (HOE R × QuadraticRep R) :=
  match eliminatePositiveTerms D h with
  | none => none
  | some h =>
    match reduceNegativeTerms h q with
    | none => none
    | some q => some (h, q)

/-- higher-order-energy.hpp 324-327 `Clear`. -/
def clear (h : HOE R) : HOE R := { h with varRecords := [] }

end OpenGM.Hoe
