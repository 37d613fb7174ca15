import Verif.Model.GraphicalModel
import Verif.Model.Partition
import Mathlib.Data.Rat.Defs
import Mathlib.Algebra.Order.Ring.Rat
/-
Model of include/opengm/inference/dmc.hxx (class DMC): decomposition of a multicut problem into the components that are connected by weights above a threshold.

Simplifications: values are rational numbers (no rounding). The solver of the subproblems and that of the whole model are functions; the submodel of Potts functions
with as many labels as variables is the list of its edges (two variables and a weight). The calls of `ufd.find` after the decomposition, which compress paths, do not
change the components (C31_find_pure). Not modelled: visitors, the checks in 237 and 254 (the first holds because the local numbers have just been assigned, the second is the condition around it), and
`value_`, which is assigned (170, 284) and never read.
-/
namespace OpenGM
namespace DMC

/-- An edge of a submodel (dmc.hxx 257-262). -/
abbrev Edge := Nat × Nat × ℚ

/-- dmc.hxx 147-149, 247-249: `val01 - val00`. -/
def weight (gm : GM ℚ) (f : FactorRec) : Option ℚ :=
  match gm.callFactor f [0, 0], gm.callFactor f [0, 1] with
  | some val00, some val01 => some (val01 - val00)
  | _, _ => none

/-- dmc.hxx 143-160: the decomposition. -/
def decompose (gm : GM ℚ) (threshold : ℚ) : List FactorRec → Partition → Outcome Unit Partition
  | [], ufd => .ok ufd ()
  | f :: fs, ufd =>
    if f.visSize = 2 then
      match weight gm f, gm.visAt f 0, gm.visAt f 1 with
      | some w, some vi0, some vi1 =>
        if w > threshold then
          match ufd.merge vi0 vi1 with
          | none => .ub
          | some ufd' => decompose gm threshold fs ufd'
        else decompose gm threshold fs ufd
      | _, _, _ => .ub
    else .throw ()

/-- dmc.hxx 174-183: `subVar[k]`, if `L` has the numbers of the components. -/
def subVar (L : List Nat) (k : Nat) : List Nat := (List.range L.length).filter (fun v => L[v]? = some k)

/-- dmc.hxx 187-200: `usedFactors_` at first: true for the factors between components. -/
def usedFactors (gm : GM ℚ) (L : List Nat) : Option (List Bool) :=
  gm.factors.mapM (fun f =>
    match (gm.visAt f 0).bind (fun v => L[v]?), (gm.visAt f 1).bind (fun v => L[v]?) with
    | some a, some b => some (decide (a ≠ b))
    | _, _ => none)

/-- dmc.hxx 235-244: the factors that are not used yet, in the order of the loops; they are used then. -/
def takeFactors (used : List Bool) : List Nat → List Nat → Option (List Bool × List Nat)
  | [], out => some (used, out)
  | f :: fs, out =>
    match used[f]? with
    | none => none
    | some true => takeFactors used fs out
    | some false => takeFactors (used.set f true) fs (out ++ [f])

/-- dmc.hxx 217-220: `globalToLocal` for the variables of the subproblem. -/
def globalToLocal (vs : List Nat) (v : Nat) : Option Nat := if v ∈ vs then some (vs.idxOf v) else none

/-- dmc.hxx 247-262: the edge of the submodel for a factor. -/
def edge (gm : GM ℚ) (vs : List Nat) (fi : Nat) : Option Edge :=
  match gm.factors[fi]? with
  | none => none
  | some f =>
    match weight gm f, (gm.visAt f 0).bind (globalToLocal vs), (gm.visAt f 1).bind (globalToLocal vs) with
    | some w, some a, some b => some (min a b, max a b, w)
    | _, _, _ => none

/-- dmc.hxx 208-274: the labels of the variables of a subproblem, without the offset. -/
def subLabels (gm : GM ℚ) (solver : Nat → List Edge → List Nat) (used : List Bool) (vs : List Nat) : Option (List Bool × List Nat) :=
  if vs.length = 1 then some (used, [0])
  else if vs.length = 2 then some (used, [0, 0])
  else
    match vs.mapM (fun v => gm.adj[v]?) with
    | none => none
    | some adj =>
      match takeFactors used adj.flatten [] with
      | none => none
      | some (used', fs) =>
        match fs.mapM (edge gm vs) with
        | none => none
        | some es => some (used', solver vs.length es)

/-- dmc.hxx 223-232, 276-279: the labels are written, with the offset. -/
def writeLabels (offset : Nat) : List Nat → List Nat → List Nat → Option (List Nat)
  | [], _, arg => some arg
  | _ :: _, [], _ => none
  | v :: vs, l :: ls, arg =>
    match setAt arg v (l + offset) with
    | none => none
    | some arg' => writeLabels offset vs ls arg'

/-- dmc.hxx 204-283: the loop over the subproblems. -/
def subLoop (gm : GM ℚ) (solver : Nat → List Edge → List Nat) : List (List Nat) → Nat → List Bool → List Nat → Option (List Nat)
  | [], _, _, arg => some arg
  | vs :: rest, offset, used, arg =>
    match subLabels gm solver used vs with
    | none => none
    | some (used', sub) =>
      match writeLabels offset vs sub arg with
      | none => none
      | some arg' => subLoop gm solver rest (offset + vs.length) used' arg'

/-- dmc.hxx 128-289 `infer` for a solver object whose labels are `arg`: the labels afterwards. `whole` are the labels that the solver finds for the whole model. -/
def infer (gm : GM ℚ) (threshold : ℚ) (solver : Nat → List Edge → List Nat) (whole : List Nat) (arg : List Nat) : Outcome Unit (List Nat) :=
  match decompose gm threshold gm.factors (Partition.ofSize gm.numberOfVariables) with
  | .ub => .ub
  | .throw _ => .throw ()
  | .ok ufd _ =>
    if ufd.numberOfSets = 1 then .ok whole ()
    else
      match ufd.elementLabeling with
      | none => .ub
      | some L =>
        match usedFactors gm L with
        | none => .ub
        | some used =>
          match subLoop gm solver ((List.range ufd.numberOfSets).map (subVar L)) 0 used arg with
          | none => .ub
          | some x => .ok x ()

/-- dmc.hxx 74-86: the labels of a new solver object. -/
def construct (gm : GM ℚ) : List Nat := List.replicate gm.numberOfVariables 0

/-- dmc.hxx 61-64 `value()`, with NDEBUG. -/
def value (_ : List Nat) : ℚ := 0

end DMC
end OpenGM
