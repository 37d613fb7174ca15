import Verif.Model.LazyFlipper
/-
Model of include/opengm/inference/auxiliary/fusion_move/fusion_mover.hxx: FuseViewFunction, FuseViewFixFunction, NativeModelProxy, QpboModelProxy, FusionMover (setup, fillSubModel, fuse, fuseQpbo),
and HlFusionMover::fuse with the LazyFlipper (the solver that is used without external libraries).

`none` is undefined behaviour or an exception (OPENGM_CHECK_OP). The pointers to the caller's vectors are modelled by their contents: the result vector is none of the two arguments.
fuseFixQpbo is modelled in Model/FixFusion. Not modelled: Ad3ModelProxy and fuseAd3, the branches with CPLEX and reduced inference.
-/
namespace OpenGM.Fusion
open Spec (Operation)
variable {V : Type}

/-- fusion_mover.hxx 381-399: data members of FusionMover that the constructor sets. -/
structure Mover (V : Type) where
  gm : GM V
  localToGlobalVi : List Nat
  globalToLocalVi : List Nat
  nLocalVar : Nat

/-- fusion_mover.hxx 383-393: the data members that `setup` sets. -/
structure Setup (V : Type) extends Mover V where
  argA : List Nat
  argB : List Nat
  argBest : List Nat
  argResult : List Nat
  valueA : V
  valueB : V
  valueBest : V
  bestLabel : Nat

/-- fusion_mover.hxx 698-708: constructor. -/
def construct (gm : GM V) : Mover V := ⟨gm, List.replicate gm.numberOfVariables 0, List.replicate gm.numberOfVariables 0, 0⟩

/-- fusion_mover.hxx 720-729: the loop of `setup` over the variables from `vi`, `k` left. -/
def setupLoop (argA argB : List Nat) : Nat → Nat → Mover V → Option (Mover V)
  | _, 0, m => some m
  | vi, k + 1, m =>
    match argA[vi]?, argB[vi]? with
    | some a, some b =>
      if a ≠ b then
        match setAt m.localToGlobalVi m.nLocalVar vi, setAt m.globalToLocalVi vi m.nLocalVar with
        | some l2g, some g2l => setupLoop argA argB (vi + 1) k { m with localToGlobalVi := l2g, globalToLocalVi := g2l, nLocalVar := m.nLocalVar + 1 }
        | _, _ => none
      else setupLoop argA argB (vi + 1) k m
    | _, _ => none

/-- fusion_mover.hxx 711-752 `setup`. -/
def setup (bop : V → V → Bool) (m : Mover V) (argA argB resultArg : List Nat) (valueA valueB : V) : Option (Setup V) :=
  match setupLoop argA argB 0 m.gm.numberOfVariables { m with nLocalVar := 0 } with
  | none => none
  | some m =>
    if resultArg.length < argA.length then none
    else
      let argResult := argA ++ resultArg.drop argA.length
      if bop valueA valueB then some ⟨m, argA, argB, argA, argResult, valueA, valueB, valueA, 0⟩
      else some ⟨m, argA, argB, argB, argResult, valueA, valueB, valueB, 1⟩

/-- fusion_mover.hxx 69-80 (and 150-162): the label that `begin[i]` selects for variable `vi`. -/
def selectLabel (argA argB : List Nat) (vi l : Nat) : Option Nat := if l < 2 then (if l = 0 then argA[vi]? else argB[vi]?) else none

/-- fusion_mover.hxx 69-80: the buffer of FuseViewFunction from position `i`, `k` left. -/
def viewBuffer (gm : GM V) (f : FactorRec) (argA argB begin_ : List Nat) : Nat → Nat → Option (List Nat)
  | _, 0 => some []
  | i, k + 1 =>
    match gm.visAt f i, begin_[i]? with
    | some vi, some l =>
      match selectLabel argA argB vi l with
      | none => none
      | some a => (viewBuffer gm f argA argB begin_ (i + 1) k).map (fun t => a :: t)
    | _, _ => none

/-- fusion_mover.hxx 66-82: `FuseViewFunction::operator()`. -/
def fuseView (gm : GM V) (f : FactorRec) (argA argB begin_ : List Nat) : Option V :=
  match viewBuffer gm f argA argB begin_ 0 f.visSize with
  | none => none
  | some buf => gm.callFactor f buf

/-- fusion_mover.hxx 131-142: constructor of FuseViewFixFunction from position `v`, `k` left: `notFixedPos_` and `iteratorBuffer_`. -/
def fixPositions (gm : GM V) (f : FactorRec) (argA argB : List Nat) : Nat → Nat → Option (List Nat × List Nat)
  | _, 0 => some ([], [])
  | v, k + 1 =>
    match gm.visAt f v with
    | none => none
    | some vi =>
      match argA[vi]?, argB[vi]?, fixPositions gm f argA argB (v + 1) k with
      | some a, some b, some (pos, buf) => if a ≠ b then some (v :: pos, 0 :: buf) else some (pos, a :: buf)
      | _, _, _ => none

/-- fusion_mover.hxx 150-162: the loop of `FuseViewFixFunction::operator()` over the positions that are not fixed; `begin[i]` is the head of the list. -/
def fixBuffer (gm : GM V) (f : FactorRec) (argA argB : List Nat) : List Nat → List Nat → List Nat → Option (List Nat)
  | [], _, buf => some buf
  | nfp :: pos, ls, buf =>
    match ls with
    | [] => none
    | l :: ls =>
      match gm.visAt f nfp with
      | none => none
      | some vi =>
        match selectLabel argA argB vi l with
        | none => none
        | some a =>
          match setAt buf nfp a with
          | none => none
          | some buf => fixBuffer gm f argA argB pos ls buf

/-- fusion_mover.hxx 147-164: `FuseViewFixFunction::operator()`. -/
def fuseViewFix (gm : GM V) (f : FactorRec) (argA argB : List Nat) (pos buf begin_ : List Nat) : Option V :=
  match fixBuffer gm f argA argB pos begin_ buf with
  | none => none
  | some buf => gm.callFactor f buf

/-- The tuples of `n` labels 0 and 1. -/
def binaryTuples : Nat → List (List Nat)
  | 0 => [[]]
  | n + 1 => (binaryTuples n).flatMap (fun t => [0 :: t, 1 :: t])

/-- A function object of `n` binary variables. Simplification: the values of the two view classes are read once, when the function is added, and not at each call (neither the model nor the
arguments change in between). -/
def binaryFunction (n : Nat) (read : List Nat → Option V) : Option (Fn V) :=
  if (binaryTuples n).all (fun c => (read c).isSome) then
    match read (List.replicate n 0) with
    | none => none
    | some d => some ⟨List.replicate n 2, fun c => match read c with | some v => v | none => d⟩
  else none

/-- The model proxies (fusion_mover.hxx 188-297): `createModel` and `addFactor`; the argument of `addFactor` is the position of the class of the function in `SubFunctionTypeList`, the function, and the
local variables. -/
structure Proxy (V M : Type) where
  create : Nat → M
  addFactor : M → Nat → Fn V → List Nat → Option M

/-- fusion_mover.hxx 188-211: NativeModelProxy. -/
def native : Proxy V (GM V) where
  create n := GM.ofSpace 3 (List.replicate n 2)
  addFactor gm ty fn vars :=
    match gm.addFunction ty fn with
    | none => none
    | some (fid, gm) =>
      match gm.addFactor fid vars with
      | .ok _ gm => some gm
      | _ => none

/-- What is given to QPBO (fusion_mover.hxx 250-260): unary terms `(i, E0, E1)` and pairwise terms `(i, j, E00, E01, E10, E11)`. -/
structure QpboTerms (V : Type) where
  nodes : Nat
  unary : List (Nat × V × V)
  pairwise : List (Nat × Nat × V × V × V × V)

/-- fusion_mover.hxx 214-269: QpboModelProxy. -/
def qpbo : Proxy V (QpboTerms V) where
  create n := ⟨n, [], []⟩
  addFactor m _ fn vars :=
    if fn.shape.length ≤ 2 then
      if fn.shape.length = 1 then
        match callFn fn [0, 0], callFn fn [1, 1], vars[0]? with
        | some e0, some e1, some i => some { m with unary := m.unary ++ [(i, e0, e1)] }
        | _, _, _ => none
      else
        match callFn fn [0, 0], callFn fn [0, 1], callFn fn [1, 0], callFn fn [1, 1], vars[0]?, vars[1]? with
        | some e00, some e01, some e10, some e11, some i, some j => some { m with pairwise := m.pairwise ++ [(i, j, e00, e01, e10, e11)] }
        | _, _, _, _, _, _ => none
    else none

/-- fusion_mover.hxx 804-815: the numbers of fixed and of not fixed variables, from position `vf`, `k` left. -/
def countFixed (gm : GM V) (f : FactorRec) (argA argB : List Nat) : Nat → Nat → Option (Nat × Nat)
  | _, 0 => some (0, 0)
  | vf, k + 1 =>
    match gm.visAt f vf with
    | none => none
    | some vi =>
      match argA[vi]?, argB[vi]?, countFixed gm f argA argB (vf + 1) k with
      | some a, some b, some (fixed, notFixed) => if a ≠ b then some (fixed, notFixed + 1) else some (fixed + 1, notFixed)
      | _, _, _ => none

/-- fusion_mover.hxx 826-830: the local variables of a factor without fixed variables. -/
def localVis (gm : GM V) (f : FactorRec) (g2l : List Nat) : Nat → Nat → Option (List Nat)
  | _, 0 => some []
  | vf, k + 1 =>
    match gm.visAt f vf with
    | none => none
    | some vi =>
      match g2l[vi]?, localVis gm f g2l (vf + 1) k with
      | some lvi, some t => some (lvi :: t)
      | _, _ => none

/-- fusion_mover.hxx 851-860: the local variables of a factor with fixed variables. -/
def localVisFix (gm : GM V) (f : FactorRec) (argA argB g2l : List Nat) : Nat → Nat → Option (List Nat)
  | _, 0 => some []
  | vf, k + 1 =>
    match gm.visAt f vf with
    | none => none
    | some gvi =>
      match argA[gvi]?, argB[gvi]?, localVisFix gm f argA argB g2l (vf + 1) k with
      | some a, some b, some t =>
        if a ≠ b then
          match g2l[gvi]? with
          | none => none
          | some lvi => some (lvi :: t)
        else some t
      | _, _, _ => none

/-- fusion_mover.hxx 777-795: a factor of first order at the local variable `lvi`; the checks of 779-780 throw. -/
def addUnary {M : Type} (px : Proxy V M) (s : Setup V) (lvi : Nat) (f : FactorRec) (m : M) : Option M :=
  match s.localToGlobalVi[lvi]?, s.gm.visAt f 0 with
  | some globalVi, some v0 =>
    if globalVi = v0 ∧ s.globalToLocalVi[v0]? = some lvi then
      match s.argA[globalVi]?, s.argB[globalVi]? with
      | some a, some b =>
        match s.gm.callFactor f [a, b], s.gm.callFactor f [b] with
        | some va, some vb => px.addFactor m 2 ⟨[2], fun c => if c = [0] then va else vb⟩ [lvi]
        | _, _ => none
      | _, _ => none
    else none
  | _, _ => none

/-- fusion_mover.hxx 801-872: a factor of higher order. -/
def addHigher {M : Type} (px : Proxy V M) (s : Setup V) (f : FactorRec) (m : M) : Option M :=
  match countFixed s.gm f s.argA s.argB 0 f.visSize with
  | none => none
  | some (fixedVar, notFixedVar) =>
    if notFixedVar > 0 then
      if fixedVar = 0 then
        match localVis s.gm f s.globalToLocalVi 0 f.visSize, binaryFunction f.visSize (fuseView s.gm f s.argA s.argB) with
        | some lvis, some fn => px.addFactor m 0 fn lvis
        | _, _ => none
      else
        match localVisFix s.gm f s.argA s.argB s.globalToLocalVi 0 f.visSize, fixPositions s.gm f s.argA s.argB 0 f.visSize with
        | some lvis, some (pos, buf) =>
          match binaryFunction pos.length (fuseViewFix s.gm f s.argA s.argB pos buf) with
          | some fn => px.addFactor m 1 fn lvis
          | none => none
        | _, _ => none
    else none

/-- fusion_mover.hxx 771-873: the loop over the factors of the local variable `lvi`; `addedFactors` as a list. -/
def factorLoop {M : Type} (px : Proxy V M) (s : Setup V) (lvi : Nat) : List Nat → M → List Nat → Option (M × List Nat)
  | [], m, added => some (m, added)
  | fi :: fis, m, added =>
    match s.gm.factors[fi]? with
    | none => none
    | some f =>
      if f.visSize = 1 then
        match addUnary px s lvi f m with
        | none => none
        | some m => factorLoop px s lvi fis m added
      else if fi ∉ added then
        match addHigher px s f m with
        | none => none
        | some m => factorLoop px s lvi fis m (added ++ [fi])
      else factorLoop px s lvi fis m added

/-- fusion_mover.hxx 765-874: the loop over the local variables from `lvi`, `k` left. -/
def variableLoop {M : Type} (px : Proxy V M) (s : Setup V) : Nat → Nat → M → List Nat → Option M
  | _, 0, m, _ => some m
  | lvi, k + 1, m, added =>
    match s.localToGlobalVi[lvi]? with
    | none => none
    | some vi =>
      match s.gm.factorsOfVariable vi with
      | none => none
      | some fis =>
        match factorLoop px s lvi fis m added with
        | none => none
        | some (m, added) => variableLoop px s (lvi + 1) k m added

/-- fusion_mover.hxx 755-875 `fillSubModel`. -/
def fillSubModel {M : Type} (px : Proxy V M) (s : Setup V) : Option M :=
  if s.nLocalVar > 0 then variableLoop px s 0 s.nLocalVar (px.create s.nLocalVar) [] else none

/-- fusion_mover.hxx 906-911: the labels of the solver are written to the result, from `lvi`, `k` left. -/
def writeBack (l2g argA argB localArg : List Nat) : Nat → Nat → List Nat → Option (List Nat)
  | _, 0, res => some res
  | lvi, k + 1, res =>
    match l2g[lvi]?, localArg[lvi]? with
    | some vi, some l =>
      match (if l = 0 then argA[vi]? else argB[vi]?) with
      | none => none
      | some a =>
        match setAt res vi a with
        | none => none
        | some res => writeBack l2g argA argB localArg (lvi + 1) k res
    | _, _ => none

/-- fusion_mover.hxx 912-917: the value of the result, or the best argument if it is better. -/
def takeBest (o : Operation V) (bop : V → V → Bool) (s : Setup V) (res : List Nat) : Option (V × Setup V) :=
  match s.gm.evaluate o res with
  | none => none
  | some v => if bop s.valueBest v then some (s.valueBest, { s with argResult := s.argBest ++ res.drop s.argBest.length }) else some (v, { s with argResult := res })

/-- fusion_mover.hxx 880-925 `fuse`. `solver` gets the model and the starting point; its answer is `none` for undefined behaviour, `some none` for the status UNKNOWN, or a labeling. -/
def fuse (o : Operation V) (bop : V → V → Bool) (solver : GM V → Option (List Nat) → Option (Option (List Nat))) (warmStart : Bool) (s : Setup V) : Option (V × Setup V) :=
  match fillSubModel native s with
  | none => none
  | some sub =>
    match solver sub (if warmStart then some (List.replicate s.nLocalVar s.bestLabel) else none) with
    | none => none
    | some none => some (s.valueBest, s)
    | some (some localArg) =>
      match writeBack s.localToGlobalVi s.argA s.argB localArg 0 s.nLocalVar s.argResult with
      | none => none
      | some res => takeBest o bop s res

/-- fusion_mover.hxx 988-1000: the label of the variable `vi` for the answer of QPBO. -/
def chosenLabel (s : Setup V) (vi : Nat) : Option Nat → Option Nat
  | some 0 => s.argA[vi]?
  | some 1 => s.argB[vi]?
  | _ => s.argBest[vi]?

/-- fusion_mover.hxx 988-1000: the labels of QPBO are written to the result; a variable without label gets that of the best argument. -/
def writeBackQpbo (s : Setup V) (label : Nat → Option Nat) : Nat → Nat → List Nat → Option (List Nat)
  | _, 0, res => some res
  | lvi, k + 1, res =>
    match s.localToGlobalVi[lvi]? with
    | none => none
    | some vi =>
      match chosenLabel s vi (label lvi) with
      | none => none
      | some a =>
        match setAt res vi a with
        | none => none
        | some res => writeBackQpbo s label (lvi + 1) k res

/-- fusion_mover.hxx 963-1009 `fuseQpbo`; `solver` is QPBO with improvement, from the terms and the labels set before (all `bestLabel_`). -/
def fuseQpbo (o : Operation V) (bop : V → V → Bool) (solver : QpboTerms V → Nat → Nat → Option Nat) (s : Setup V) : Option (V × Setup V) :=
  match fillSubModel qpbo s with
  | none => none
  | some q =>
    match writeBackQpbo s (solver q s.bestLabel) 0 s.nLocalVar s.argResult with
    | none => none
    | some res => takeBest o bop s res

/-- The LazyFlipper with the subgraph size `maxSize` as solver (fusion_mover.hxx 584-585 and 896-905): it is constructed with default parameters otherwise, and its status is NORMAL. -/
def lazySolver (c : LazyFlip.Request V) (maxSize : Nat) (gm : GM V) (start : Option (List Nat)) : Option (Option (List Nat)) :=
  match LazyFlip.construct c.o gm maxSize [] none with
  | .ok lf () =>
    match (match start with
      | none => some lf
      | some start => LazyFlip.setStartingPoint c.o lf start) with
    | none => none
    | some lf =>
      match LazyFlip.infer c lf with
      | none => none
      | some lf => (LazyFlip.arg lf).map some
  | _ => none

/-- fusion_mover.hxx 528-596: `HlFusionMover::fuse` with the LazyFlipper and without reduced inference: the answer, the result and its value, and the mover. -/
def hlFuse (c : LazyFlip.Request V) (maxSize : Nat) (m : Mover V) (argA argB argRes : List Nat) (valA valB valRes : V) : Option (Bool × List Nat × V × Mover V) :=
  match setup c.bop m argA argB argRes valA valB with
  | none => none
  | some s =>
    if s.nLocalVar > 0 then
      match fuse c.o.toOperation c.bop (lazySolver c maxSize) true s with
      | none => none
      | some (v, s) => some (true, s.argResult, v, s.toMover)
    else some (false, s.argResult, valRes, s.toMover)

end OpenGM.Fusion
