import Verif.Model.DMC
import Verif.Model.StartingPoint
/-
Model of include/opengm/inference/auxiliary/fusion_move/permutable_label_fusion_mover.hxx (class PermutableLabelFusionMove): `intersect`, and `fuse` with a solver for
multicut problems (`doMoveMulticut`, `doMoveCgc`).

Simplifications: values are rational numbers (no rounding) and keys do not overflow. The map of weights is a list of pairs in the order of their first use (in the code
in the order of the keys). The submodel of Potts functions is the list of its edges. The solver is a function of the number of nodes and the edges. Not modelled:
`fuseClassic`, the hierarchical clustering, and the value of the submodel, which is not used.
-/
namespace OpenGM
namespace PermutableFusion

/-- permutable_label_fusion_mover.hxx 286-304: the loop over the factors. -/
def intersectLoop (gm : GM ℚ) (a b : List Nat) : List FactorRec → Partition → Outcome Unit Partition
  | [], ufd => .ok ufd ()
  | f :: fs, ufd =>
    if f.visSize = 2 then
      match gm.visAt f 0, gm.visAt f 1 with
      | some vi0, some vi1 =>
        match a[vi0]?, a[vi1]?, b[vi0]?, b[vi1]? with
        | some a0, some a1, some b0, some b1 =>
          if a0 = a1 ∧ b0 = b1 then
            match ufd.merge vi0 vi1 with
            | none => .ub
            | some ufd' => intersectLoop gm a b fs ufd'
          else intersectLoop gm a b fs ufd
        | _, _, _, _ => .ub
      | _, _ => .ub
    else if f.visSize = 1 then intersectLoop gm a b fs ufd
    else .throw ()

/-- permutable_label_fusion_mover.hxx 280-318 `intersect`: the number of sets and the labels (the loop in 307-309 is that of generate_starting_point.hxx 46-50). -/
def intersect (gm : GM ℚ) (a b : List Nat) : Outcome Unit (Nat × List Nat) :=
  match intersectLoop gm a b gm.factors (Partition.ofSize gm.numberOfVariables) with
  | .ub => .ub
  | .throw _ => .throw ()
  | .ok ufd _ =>
    match ufd.representativeLabeling with
    | none => .ub
    | some rl =>
      match StartingPoint.labelLoop rl (List.range gm.numberOfVariables) ufd with
      | none => .ub
      | some res => .ok (ufd.numberOfSets, res) ()

/-- permutable_label_fusion_mover.hxx 386-396: a weight is added to the entry of a key, which is made if there is none. -/
def addWeight (key : Nat) (weight : ℚ) : List (Nat × ℚ) → List (Nat × ℚ)
  | [] => [(key, weight)]
  | (k, w) :: rest => if k = key then (k, w + weight) :: rest else (k, w) :: addWeight key weight rest

/-- permutable_label_fusion_mover.hxx 358-401: the loop over the factors; `edges` is `erasedEdges + notErasedEdges`. -/
def accumulate (gm : GM ℚ) (ab : List Nat) (numNewVar : Nat) : List FactorRec → Nat → List (Nat × ℚ) → Outcome Unit (Nat × List (Nat × ℚ))
  | [], edges, acc => .ok (edges, acc) ()
  | f :: fs, edges, acc =>
    if f.visSize = 2 then
      match (gm.visAt f 0).bind (fun v => ab[v]?), (gm.visAt f 1).bind (fun v => ab[v]?) with
      | some l0, some l1 =>
        let cVi0 := if l0 < l1 then l0 else l1
        let cVi1 := if l0 < l1 then l1 else l0
        if cVi0 < gm.numberOfVariables ∧ cVi1 < gm.numberOfVariables then
          if cVi0 = cVi1 then accumulate gm ab numNewVar fs (edges + 1) acc
          else
            match DMC.weight gm f with
            | none => .ub
            | some weight => accumulate gm ab numNewVar fs (edges + 1) (addWeight (cVi0 + numNewVar * cVi1) weight acc)
        else .throw ()
      | _, _ => .ub
    else accumulate gm ab numNewVar fs edges acc

/-- permutable_label_fusion_mover.hxx 517-527, 608-618: the edge of the submodel for an entry of the map. -/
def edgeOf (numNewVar : Nat) (e : Nat × ℚ) : Nat × Nat × ℚ := (e.1 - e.1 / numNewVar * numNewVar, e.1 / numNewVar, e.2)

/-- permutable_label_fusion_mover.hxx 320-431 `fuse`, with 495-566 `doMoveCgc` or 587-684 `doMoveMulticut`: the return value, `res` and `valRes` afterwards. -/
def fuse (gm : GM ℚ) (solver : Nat → List (Nat × Nat × ℚ) → List Nat) (a b res : List Nat) (valA valB valRes : ℚ) : Outcome Unit (Bool × List Nat × ℚ) :=
  match intersect gm a b with
  | .ub => .ub
  | .throw _ => .throw ()
  | .ok (numNewVar, ab) _ =>
    if numNewVar = 1 then .ok (false, res, valRes) ()
    else
      match gm.evaluate ⟨0, (· + ·)⟩ ab with
      | none => .ub
      | some _ =>
        match accumulate gm ab numNewVar gm.factors 0 [] with
        | .ub => .ub
        | .throw _ => .throw ()
        | .ok (edges, accWeights) _ =>
          if edges = gm.numberOfFactors then
            let subArg := solver numNewVar (accWeights.map (edgeOf numNewVar))
            match ab.mapM (fun l => subArg[l]?) with
            | none => .ub
            | some projected =>
              match gm.evaluate ⟨0, (· + ·)⟩ projected with
              | none => .ub
              | some projectedResultVal =>
                let bestArg := if valA < valB then a else b
                let bestProposalVal := if valA < valB then valA else valB
                let valRes' := if bestProposalVal < projectedResultVal then bestProposalVal else projectedResultVal
                if projectedResultVal < bestProposalVal then .ok (true, projected, valRes') () else .ok (true, bestArg, valRes') ()
          else .throw ()

end PermutableFusion
end OpenGM
