import Verif.Model.Acyclic
import Verif.Spec.Tuples
/-
Model of include/opengm/inference/messagepassing/messagepassing.hxx (class MessagePassing) with the update rules of belief propagation
(messagepassing_bp.hxx, messagepassing_buffer.hxx, messagepassing_operations_withFunctors.hxx), with NDEBUG: construction, reset, infer on acyclic
models (inferAcyclic) and marginal. `none` is an access out of range. Not modelled: inferParallel, inferSequential, damping (inferAcyclic
calls `propagate` with damping 0), convergence, the update rules of TRBP.
-/
namespace OpenGM
namespace MessagePassing
open Spec (Operation allTuples)
variable {V : Type}

/-- The operations used: `OP::op`, `OP::neutral`, `OP::iop(v, out)`, `ACC::op(in, out)`, `ACC::neutral`, and the test of `normalize`
`Compare<OP,Multiplier> && v <= 0.00001`. -/
structure Rules (V : Type) where
  o : Operation V
  iop : V → V → V
  accOp : V → V → V
  accNeutral : V
  skip : V → Bool

/-- messagepassing_buffer.hxx 45-48: data members of `MessageBuffer`. -/
structure Buffer (V : Type) where
  flag : Bool
  buffer1 : List V
  buffer2 : List V

/-- messagepassing_buffer.hxx 138-146 `current`. -/
def Buffer.current (b : Buffer V) : List V := if b.flag then b.buffer1 else b.buffer2

/-- messagepassing_buffer.hxx 158-160 `toggle`. -/
def Buffer.toggle (b : Buffer V) : Buffer V := { b with flag := !b.flag }

/-- Write to `current()`. -/
def Buffer.write (b : Buffer V) (m : List V) : Buffer V := if b.flag then { b with buffer1 := m } else { b with buffer2 := m }

/-- marray.hxx `resize(begin, end, value)` of an array with one dimension: the old values stay. -/
def resizeRow (old : List V) (shape : Nat) (constant : V) : List V := old.take shape ++ List.replicate (shape - old.length) constant

/-- messagepassing_buffer.hxx 103-118 `assign(shape, constant)`. -/
def Buffer.assign (b : Buffer V) (shape : Nat) (constant : V) : Buffer V :=
  if shape = 0 then ⟨false, [constant], [constant]⟩ else ⟨false, resizeRow b.buffer1 shape constant, resizeRow b.buffer2 shape constant⟩

/-- A buffer of a vector that has just been resized. -/
def Buffer.fresh : Buffer V := ⟨false, [], []⟩

/-- messagepassing.hxx 185-188 and messagepassing_bp.hxx 44-46, 67-69: data members. The buffers that a variable reads are `varIn`, those that a factor
reads are `facIn`; the pointers `outBuffer_` are pairs of node and number of the buffer (`none`: not set). `useNormalization` is the value of the
Tribool converted to bool (Maybe is replaced by false in infer, and converts to false). -/
structure MP (V : Type) where
  gm : GM V
  isAcyclic : Option Bool
  useNormalization : Bool
  varIn : List (List (Buffer V))
  varOut : List (List (Option (Nat × Nat)))
  facIn : List (List (Buffer V))
  facOut : List (List (Option (Nat × Nat)))

/-- `std::vector::resize` of a vector of buffers or of vectors of buffers. -/
def resizeTo {α : Type} (l : List α) (n : Nat) (x : α) : List α := l.take n ++ List.replicate (n - l.length) x

/-- messagepassing_bp.hxx 105-118 `VariableHullBP::assign` for one variable. -/
def assignVariable (neutral : V) (labels degree : Nat) (old : List (Buffer V)) : List (Buffer V) :=
  (resizeTo old degree Buffer.fresh).map (fun b => b.assign labels neutral)

/-- messagepassing_bp.hxx 250-256: the number of the buffer of factor `f` in the list of the factors of a variable (1000000 if there is none). -/
def bufferNumber (f : Nat) : List Nat → Nat → Nat
  | [], _ => 1000000
  | g :: gs, i => if g = f then i else bufferNumber f gs (i + 1)

/-- messagepassing_bp.hxx 245-258: the loop of `FactorHullBP::assign` over the variables of the factor: pointers of the variables and of the factor, and numbers of labels. -/
def connectLoop (gm : GM V) (f : Nat) : List Nat → Nat → List (List (Option (Nat × Nat))) →
    Option (List (List (Option (Nat × Nat))) × List (Nat × Option (Nat × Nat)))
  | [], _, varOut => some (varOut, [])
  | v :: vs, n, varOut =>
    match gm.numLabels[v]?, gm.adj[v]?, varOut[v]? with
    | some labels, some adj, some out =>
      match setAt out (bufferNumber f adj 0) (some (f, n)) with
      | none => none
      | some out' =>
        match connectLoop gm f vs (n + 1) (varOut.set v out') with
        | none => none
        | some (r, rest) => some (r, (labels, some (v, bufferNumber f adj 0)) :: rest)
    | _, _, _ => none

/-- Resize and assign the buffers of a factor (messagepassing_bp.hxx 243-248). -/
def assignFactor (neutral : V) (labels : List Nat) (old : List (Buffer V)) : List (Buffer V) :=
  ((resizeTo old labels.length Buffer.fresh).zip labels).map (fun b => b.1.assign b.2 neutral)

/-- messagepassing.hxx 213-216: the loop over the factors. -/
def assignFactors (gm : GM V) (neutral : V) : List FactorRec → Nat → List (List (Buffer V)) → List (List (Option (Nat × Nat))) →
    Option (List (List (Option (Nat × Nat))) × List (List (Buffer V)) × List (List (Option (Nat × Nat))))
  | [], _, _, varOut => some (varOut, [], [])
  | f :: fs, k, old, varOut =>
    match connectLoop gm k (gm.scope f) 0 varOut with
    | none => none
    | some (varOut', conn) =>
      match assignFactors gm neutral fs (k + 1) old.tail varOut' with
      | none => none
      | some (r, ins, outs) => some (r, assignFactor neutral (conn.map Prod.fst) (old.headD []) :: ins, conn.map Prod.snd :: outs)

/-- messagepassing.hxx 209-216, 233-240: set the hulls, starting from what they were (empty in the constructor). -/
def setHulls (r : Rules V) (s : MP V) : Option (MP V) :=
  let varIn := (resizeTo s.varIn s.gm.numberOfVariables []).zipWith (fun old x => assignVariable r.o.neutral x.1 x.2 old) (s.gm.numLabels.zip (s.gm.adj.map List.length))
  let varOut := (resizeTo s.varOut s.gm.numberOfVariables []).zipWith (fun old d => resizeTo old d none) (s.gm.adj.map List.length)
  match assignFactors s.gm r.o.neutral s.gm.factors 0 s.facIn varOut with
  | none => none
  | some (varOut', facIn, facOut) => some { s with varIn := varIn, varOut := varOut', facIn := facIn, facOut := facOut }

/-- messagepassing.hxx 190-217: constructor. -/
def construct (r : Rules V) (gm : GM V) (isAcyclic : Option Bool) (useNormalization : Bool) : Option (MP V) :=
  setHulls r ⟨gm, isAcyclic, useNormalization, [], [], [], []⟩

/-- messagepassing.hxx 219-241 `reset` -/
def reset (r : Rules V) (s : MP V) : Option (MP V) := setHulls r s

/-- messagepassing_operations_withFunctors.hxx 26-43 `normalize` -/
def normalize (r : Rules V) (m : List V) : List V :=
  let v := m.foldl (fun acc a => r.accOp a acc) r.accNeutral
  if r.skip v then m else m.map (r.iop v)

/-- `OP::op(f_j(n), out(n))` for all messages, for one label. -/
def opAt (o : Operation V) (n : Nat) : List (List V) → V → Option V
  | [], a => some a
  | m :: ms, a =>
    match m[n]? with
    | none => none
    | some b => opAt o n ms (o.op a b)

/-- messagepassing_operations_withFunctors.hxx 66-83, 107-128 `operate`: combine messages with `size` entries (the loops over labels and messages are exchanged). -/
def operate (o : Operation V) (size : Nat) (ms : List (List V)) : Option (List V) := (List.range size).mapM (fun n => opAt o n ms o.neutral)

/-- Change buffer `j` of node `v`. -/
def modifyBuffer (bs : List (List (Buffer V))) (v j : Nat) (b : Buffer V) : Option (List (List (Buffer V))) :=
  match bs[v]? with
  | none => none
  | some row => (setAt row j b).map (bs.set v)

def getBuffer (bs : List (List (Buffer V))) (v j : Nat) : Option (Buffer V) := (bs[v]?).bind (fun row => row[j]?)

def getPointer (ps : List (List (Option (Nat × Nat)))) (v j : Nat) : Option (Nat × Nat) := ((ps[v]?).bind (fun row => row[j]?)).join

/-- messagepassing_bp.hxx 136-163 `VariableHullBP::propagate` (damping 0, no normalization). -/
def propagateVariable (r : Rules V) (s : MP V) (v j : Nat) : Option (MP V) :=
  match getPointer s.varOut v j, s.varIn[v]? with
  | some (f, i), some ins =>
    match getBuffer s.facIn f i with
    | none => none
    | some b =>
      if ins.length < 2 then (modifyBuffer s.facIn f i b.toggle).map (fun facIn => { s with facIn := facIn })
      else
        match operate r.o b.toggle.current.length ((ins.map Buffer.current).eraseIdx j) with
        | none => none
        | some m => (modifyBuffer s.facIn f i (b.toggle.write m)).map (fun facIn => { s with facIn := facIn })
  | _, _ => none

/-- messagepassing_operations_withFunctors.hxx 232-246: `OP::op(vec_[j].current()(label), value)` for the given messages and labels. -/
def opMessages (o : Operation V) : List (List V) → List Nat → V → Option V
  | [], _, a => some a
  | _ :: _, [], _ => none
  | m :: ms, l :: ls, a =>
    match m[l]? with
    | none => none
    | some b => opMessages o ms ls (o.op a b)

/-- messagepassing_operations_withFunctors.hxx 196-215: the label pairs of a function of two variables in the order of the loops. -/
def pairs (n0 n1 : Nat) : List (List Nat) := (List.range n0).flatMap (fun a => (List.range n1).map (fun b => [a, b]))

/-- The labels at which a function is evaluated, in order (for dimension 2 nested loops, otherwise the ShapeWalker, first coordinate fastest: Props/Walkers). -/
def tuples (shape : List Nat) : List (List Nat) :=
  match shape with
  | [n0, n1] => pairs n0 n1
  | _ => allTuples shape

/-- messagepassing_operations_withFunctors.hxx 196-250: the loop over the labels. -/
def accumulateLoop (r : Rules V) (call : List Nat → Option V) (ms : List (List V)) (i : Nat) : List (List Nat) → List V → Option (List V)
  | [], out => some out
  | t :: ts, out =>
    match call t, t[i]? with
    | some a, some l =>
      match opMessages r.o (ms.eraseIdx i) (t.eraseIdx i) a, out[l]? with
      | some value, some old => accumulateLoop r call ms i ts (out.set l (r.accOp value old))
      | _, _ => none
    | _, _ => none

/-- messagepassing_operations_withFunctors.hxx 178-270 `operateF` with `OperateF_Functor`; `size` is the number of entries of the message. -/
def operateF (r : Rules V) (gm : GM V) (f : FactorRec) (ms : List (List V)) (i size : Nat) : Option (List V) :=
  match gm.getFunction ⟨f.functionIndex, f.functionType⟩ with
  | none => none
  | some fn => accumulateLoop r (gm.callFactor f) ms i (tuples fn.shape) (List.replicate size r.accNeutral)

/-- messagepassing_bp.hxx 262-285 `FactorHullBP::propagate` (damping 0). -/
def propagateFactor (r : Rules V) (s : MP V) (f i : Nat) : Option (MP V) :=
  match getPointer s.facOut f i, s.facIn[f]?, s.gm.factors[f]? with
  | some (v, j), some ins, some rec =>
    match getBuffer s.varIn v j with
    | none => none
    | some b =>
      match operateF r s.gm rec (ins.map Buffer.current) i b.toggle.current.length with
      | none => none
      | some m => (modifyBuffer s.varIn v j (b.toggle.write (if s.useNormalization then normalize r m else m))).map (fun varIn => { s with varIn := varIn })
  | _, _, _ => none

/-- `--counter` on a size_t. -/
def dec (n : Nat) : Nat := if n = 0 then 2 ^ 64 - 1 else n - 1

/-- messagepassing.hxx 377-383, 394-400: the loop over the neighbours of the receiver; result: the new counters, and the numbers of the messages that can now be sent. -/
def release (self : Nat) : List Nat → List Nat → Nat → Option (List Nat × List Nat)
  | [], cs, _ => some (cs, [])
  | _ :: _, [], _ => none
  | w :: ws, c :: cs, i =>
    match release self ws cs (i + 1) with
    | none => none
    | some (cs', new) =>
      if w ≠ self then (if dec c = 0 then some (dec c :: cs', i :: new) else some (dec c :: cs', new))
      else some (c :: cs', new)

/-- Local variables of inferAcyclic: the counters and the lists of messages that can be sent (back of the vector = head of the list). -/
structure Schedule where
  counterVar2Fac : List (List Nat)
  counterFac2Var : List (List Nat)
  readyVar2Fac : List (Nat × Nat)
  readyFac2Var : List (Nat × Nat)

/-- messagepassing.hxx 345-361: the messages with counter 0, in order. -/
def readyOf : List (List Nat) → Nat → List (Nat × Nat)
  | [], _ => []
  | row :: rows, k => ((List.range row.length).filter (fun i => decide (row[i]? = some 0))).map (fun i => (k, i)) ++ readyOf rows (k + 1)

/-- `if(counter == 0) --counter` -/
def markReady (counters : List (List Nat)) : List (List Nat) := counters.map (fun row => row.map (fun c => if c = 0 then dec c else c))

/-- messagepassing.hxx 326-361 -/
def start (gm : GM V) : Schedule :=
  let cF := gm.factors.map (fun f => List.replicate f.visSize (f.visSize - 1))
  let cV := gm.adj.map (fun a => List.replicate a.length (a.length - 1))
  ⟨markReady cV, markReady cF, (readyOf cV 0).reverse, (readyOf cF 0).reverse⟩

/-- messagepassing.hxx 364-384: `while (ready2SendVar2FacMessage.size() > 0)`; the messages that become ready go to the other list. -/
def drainVariables (r : Rules V) : List (Nat × Nat) → MP V → List (List Nat) → List (Nat × Nat) → Option (MP V × List (List Nat) × List (Nat × Nat))
  | [], s, cF, ready => some (s, cF, ready)
  | (v, j) :: rest, s, cF, ready =>
    match (s.gm.adj[v]?).bind (fun adj => adj[j]?) with
    | none => none
    | some f =>
      match propagateVariable r s v j, s.gm.factors[f]?, cF[f]? with
      | some s', some rec, some row =>
        match release v (s.gm.scope rec) row 0 with
        | none => none
        | some (row', new) => drainVariables r rest s' (cF.set f row') ((new.map (fun i => (f, i))).reverse ++ ready)
      | _, _, _ => none

/-- messagepassing.hxx 385-401: `while (ready2SendFac2VarMessage.size() > 0)`. -/
def drainFactors (r : Rules V) : List (Nat × Nat) → MP V → List (List Nat) → List (Nat × Nat) → Option (MP V × List (List Nat) × List (Nat × Nat))
  | [], s, cV, ready => some (s, cV, ready)
  | (f, i) :: rest, s, cV, ready =>
    match (s.gm.factors[f]?).bind (fun rec => s.gm.visAt rec i) with
    | none => none
    | some v =>
      match propagateFactor r s f i, s.gm.adj[v]?, cV[v]? with
      | some s', some adj, some row =>
        match release f adj row 0 with
        | none => none
        | some (row', new) => drainFactors r rest s' (cV.set v row') ((new.map (fun j => (v, j))).reverse ++ ready)
      | _, _, _ => none

/-- messagepassing.hxx 363-404: the outer loop; `k` counts the calls of the visitor. -/
def rounds (r : Rules V) (visit : Nat → Bool) : Nat → Nat → MP V → Schedule → Option (MP V)
  | 0, _, _, _ => none
  | fuel + 1, k, s, c =>
    if c.readyVar2Fac.isEmpty && c.readyFac2Var.isEmpty then some s
    else
      match drainVariables r c.readyVar2Fac s c.counterFac2Var c.readyFac2Var with
      | none => none
      | some (s1, cF, readyF) =>
        match drainFactors r readyF s1 c.counterVar2Fac [] with
        | none => none
        | some (s2, cV, readyV) => if visit k then some s2 else rounds r visit fuel (k + 1) s2 ⟨cV, cF, readyV, []⟩

/-- The number of messages (in one direction). -/
def messages (gm : GM V) : Nat := (gm.factors.map (fun f => f.visSize)).sum

/-- messagepassing.hxx 305-408 `inferAcyclic(visitor)`. Each message is sent at most once, so that the fuel is enough. -/
def inferAcyclic (r : Rules V) (visit : Nat → Bool) (s : MP V) : Option (MP V) := rounds r visit (2 * messages s.gm + 1) 0 s (start s.gm)

/-- messagepassing.hxx 262-296 `infer(visitor)`; the inner `none`: the model is not acyclic (not modelled). -/
def infer (r : Rules V) (visit : Nat → Bool) (s : MP V) : Option (Option (MP V)) :=
  match s.isAcyclic with
  | some true => (inferAcyclic r visit s).map some
  | some false => some none
  | none =>
    match s.gm.factorGraph.isAcyclic with
    | none => none
    | some true => (inferAcyclic r visit { s with isAcyclic := some true }).map some
    | some false => some none

/-- messagepassing.hxx 554-564 `marginal` and messagepassing_bp.hxx 183-202: the values of the marginal of variable `v`, by label. -/
def marginal (r : Rules V) (s : MP V) (v : Nat) : Option (List V) :=
  match s.varIn[v]?, s.gm.numLabels[v]? with
  | some ins, some n =>
    (operate r.o n (ins.map Buffer.current)).map (fun out => if s.useNormalization then normalize r out else out)
  | _, _ => none

/-- messagepassing_operations_withFunctors.hxx 334-351: the loop of `OperatorF2_Functor`. -/
def operateAll (o : Operation V) (call : List Nat → Option V) (ms : List (List V)) : List (List Nat) → Option (List V)
  | [] => some []
  | t :: ts =>
    match call t with
    | none => none
    | some a =>
      match opMessages o ms t a with
      | none => none
      | some value => (operateAll o call ms ts).map (fun out => value :: out)

/-- messagepassing.hxx 566-578 `factorMarginal` and messagepassing_bp.hxx 306-318: the values of the marginal of factor `f`, first label fastest
(factors without variables are not modelled). -/
def factorMarginal (r : Rules V) (s : MP V) (f : Nat) : Option (List V) :=
  match s.facIn[f]?, s.gm.factors[f]? with
  | some ins, some rec =>
    match s.gm.getFunction ⟨rec.functionIndex, rec.functionType⟩ with
    | none => none
    | some fn =>
      if fn.shape = [] then none
      else (operateAll r.o (s.gm.callFactor rec) (ins.map Buffer.current) (allTuples fn.shape)).map (fun out => if s.useNormalization then normalize r out else out)
  | _, _ => none

end MessagePassing
end OpenGM
