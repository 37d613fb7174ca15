import Verif.Model.SoftConstraint
/-
Linear constraints: IndicatorVariable, LinearConstraint, and the constraint functions LinearConstraintFunction, LabelOrderFunction and
NumLabelsLimitationFunction.
Modelled: /repo/include/opengm/datastructures/indicator_variable.hxx, linear_constraint.hxx,
/repo/include/opengm/functions/constraint_functions/linear_constraint_function.hxx, label_order_function.hxx, num_labels_limitation_function.hxx
(constructors, comparison, operator(), shape, size, min, max, challenge, challengeRelaxed, serialization). Labels, indices and sizes are natural numbers
(`size_` of functions made from a shape as in Model/SoftConstraint). The result of challenge is the list of the numbers and weights between the iterators
it returns; the vectors it is written to have a fixed length, and writing behind their end is `none`. `std::sort` on pairs, a total order, is insertion sort;
`std::sort` on indicator variables is a parameter, because the comparison is not a strict weak ordering in general. LabelOrderFunction is modelled with the
compile time constants of the code (`useSingleConstraint_` true, `useMultipleConstraints_` false). The tolerance `OPENGM_FLOAT_TOL` is a parameter; counts are
compared as numbers. The default constructors of the functions are not modelled. Values are a commutative ring with an order.
-/
namespace OpenGM
namespace LinCon
open Learnable SoftConstraint

/-! ### IndicatorVariable -/

/-- indicator_variable.hxx 20 -/
inductive LogOp | and_ | or_ | not_
  deriving DecidableEq, Repr

/-- The number of an enumerator. -/
def LogOp.toNat : LogOp → Nat | and_ => 0 | or_ => 1 | not_ => 2

/-- The enumerator with a number. -/
def LogOp.ofCode : Nat → Option LogOp | 0 => some and_ | 1 => some or_ | 2 => some not_ | _ => none

/-- indicator_variable.hxx 54-55 -/
structure IV where
  pairs : List (Nat × Nat)
  op : LogOp
  deriving DecidableEq, Repr

/-- The order of `std::pair`. -/
def pairLe (a b : Nat × Nat) : Bool := decide (a.1 < b.1) || (decide (a.1 = b.1) && decide (a.2 ≤ b.2))

/-- A step of insertion sort. -/
def insertPair (a : Nat × Nat) : List (Nat × Nat) → List (Nat × Nat)
  | [] => [a]
  | b :: l => if pairLe a b then a :: b :: l else b :: insertPair a l

/-- `std::sort` on pairs. -/
def sortPairs : List (Nat × Nat) → List (Nat × Nat)
  | [] => []
  | a :: l => insertPair a (sortPairs l)

namespace IV

/-- indicator_variable.hxx 434-438 -/
def empty : IV := ⟨[], .and_⟩

/-- indicator_variable.hxx 440-452 -/
def ofPair (variable_ label : Nat) (op : LogOp) : IV := ⟨[(variable_, label)], op⟩

/-- indicator_variable.hxx 454-467 -/
def ofPairs (pairs : List (Nat × Nat)) (op : LogOp) : IV := ⟨sortPairs pairs, op⟩

/-- indicator_variable.hxx 475-485 -/
def add (v : IV) (variable_ label : Nat) : IV := { v with pairs := sortPairs (v.pairs ++ [(variable_, label)]) }

/-- indicator_variable.hxx 487-498 -/
def addAll (v : IV) (pairs : List (Nat × Nat)) : IV := { v with pairs := sortPairs (v.pairs ++ pairs) }

/-- indicator_variable.hxx 500-503 -/
def setOp (v : IV) (op : LogOp) : IV := { v with op := op }

/-- indicator_variable.hxx 511-516: the loop for `And`. -/
def loopAnd (states : List Nat) : List (Nat × Nat) → Option Bool
  | [] => some true
  | p :: ps =>
    match states[p.1]? with
    | none => none
    | some s => if p.2 ≠ s then some false else loopAnd states ps

/-- indicator_variable.hxx 519-524: the loop for `Or`. -/
def loopOr (states : List Nat) : List (Nat × Nat) → Option Bool
  | [] => some false
  | p :: ps =>
    match states[p.1]? with
    | none => none
    | some s => if p.2 = s then some true else loopOr states ps

/-- indicator_variable.hxx 527-532: the loop for `Not`. -/
def loopNot (states : List Nat) : List (Nat × Nat) → Option Bool
  | [] => some true
  | p :: ps =>
    match states[p.1]? with
    | none => none
    | some s => if p.2 = s then some false else loopNot states ps

/-- indicator_variable.hxx 506-535 `operator()`. -/
def eval (v : IV) (states : List Nat) : Option Bool :=
  match v.op with
  | .and_ => loopAnd states v.pairs
  | .or_ => loopOr states v.pairs
  | .not_ => loopNot states v.pairs

/-- indicator_variable.hxx 577-585: the loop of `operator<`, for lists of the same length. -/
def lessLoop : List (Nat × Nat) → List (Nat × Nat) → Bool
  | p :: ps, q :: qs => if p.1 > q.1 then false else if p.1 = q.1 ∧ p.2 ≥ q.2 then false else lessLoop ps qs
  | _, _ => true

/-- indicator_variable.hxx 563-589 `operator<`. -/
def less (a b : IV) : Bool :=
  if a.op.toNat < b.op.toNat then true
  else if a.op.toNat > b.op.toNat then false
  else if a.pairs.length > b.pairs.length then false
  else if a.pairs.length = b.pairs.length then
    if a.pairs.length = 0 then false else lessLoop a.pairs b.pairs
  else true

/-- indicator_variable.hxx 605-613: the loop of `operator>`. -/
def greaterLoop : List (Nat × Nat) → List (Nat × Nat) → Bool
  | p :: ps, q :: qs => if p.1 < q.1 then false else if p.1 = q.1 ∧ p.2 ≤ q.2 then false else greaterLoop ps qs
  | _, _ => true

/-- indicator_variable.hxx 591-617 `operator>`. -/
def greater (a b : IV) : Bool :=
  if a.op.toNat < b.op.toNat then false
  else if a.op.toNat > b.op.toNat then true
  else if a.pairs.length < b.pairs.length then false
  else if a.pairs.length = b.pairs.length then
    if a.pairs.length = 0 then false else greaterLoop a.pairs b.pairs
  else true

/-- indicator_variable.hxx 630-638: the loop of `operator<=`. -/
def lessEqLoop : List (Nat × Nat) → List (Nat × Nat) → Bool
  | p :: ps, q :: qs => if p.1 > q.1 then false else if p.1 = q.1 ∧ p.2 > q.2 then false else lessEqLoop ps qs
  | _, _ => true

/-- indicator_variable.hxx 619-642 `operator<=`. -/
def lessEq (a b : IV) : Bool :=
  if a.op.toNat < b.op.toNat then true
  else if a.op.toNat > b.op.toNat then false
  else if a.pairs.length > b.pairs.length then false
  else if a.pairs.length = b.pairs.length then lessEqLoop a.pairs b.pairs
  else true

/-- indicator_variable.hxx 655-663: the loop of `operator>=`. -/
def greaterEqLoop : List (Nat × Nat) → List (Nat × Nat) → Bool
  | p :: ps, q :: qs => if p.1 < q.1 then false else if p.1 = q.1 ∧ p.2 < q.2 then false else greaterEqLoop ps qs
  | _, _ => true

/-- indicator_variable.hxx 644-667 `operator>=`. -/
def greaterEq (a b : IV) : Bool :=
  if a.op.toNat < b.op.toNat then false
  else if a.op.toNat > b.op.toNat then true
  else if a.pairs.length < b.pairs.length then false
  else if a.pairs.length = b.pairs.length then greaterEqLoop a.pairs b.pairs
  else true

end IV

/-! ### LinearConstraint -/

/-- linear_constraint.hxx 17 -/
inductive COp | lessEqual | equal | greaterEqual
  deriving DecidableEq, Repr

/-- The number of an enumerator. -/
def COp.toNat : COp → Nat | lessEqual => 0 | equal => 1 | greaterEqual => 2

/-- The enumerator with a number. -/
def COp.ofCode : Nat → Option COp | 0 => some lessEqual | 1 => some equal | 2 => some greaterEqual | _ => none

/-- linear_constraint.hxx: the members. -/
structure Con (V : Type) where
  vars : List IV
  coeffs : List V
  bound : V
  op : COp
  deriving DecidableEq

section
variable {V : Type} [CommRing V] [LinearOrder V]

namespace Con

omit [LinearOrder V] in
/-- linear_constraint.hxx 390-395 -/
def empty : Con V := ⟨[], [], 0, .lessEqual⟩

/-- linear_constraint.hxx 428-432 -/
def add (c : Con V) (v : IV) (coefficient : V) : Con V := { c with vars := c.vars ++ [v], coeffs := c.coeffs ++ [coefficient] }

/-- linear_constraint.hxx 434-445 -/
def addAll (c : Con V) (vs : List IV) (coefficients : List V) : Con V := { c with vars := c.vars ++ vs, coeffs := c.coeffs ++ coefficients }

/-- linear_constraint.hxx 461-465: the left hand side. -/
def lhsLoop (states : List Nat) : List IV → List V → V → Option V
  | [], _, r => some r
  | v :: vs, cs, r =>
    match v.eval states with
    | none => none
    | some false => lhsLoop states vs (cs.drop 1) r
    | some true =>
      match cs[0]? with
      | none => none
      | some c => lhsLoop states vs (cs.drop 1) (r + c)

/-- linear_constraint.hxx 469-502: the comparison with the bound. -/
def weigh (op : COp) (lhs bound : V) : V :=
  let weight := lhs - bound
  match op with
  | .lessEqual => if weight > 0 then weight else 0
  | .equal => if weight > 0 then weight else if weight < 0 then -weight else 0
  | .greaterEqual => if weight < 0 then -weight else 0

/-- linear_constraint.hxx 457-503 `operator()`. -/
def eval (c : Con V) (states : List Nat) : Option V := (lhsLoop states c.vars c.coeffs 0).map (fun lhs => weigh c.op lhs c.bound)

end Con

/-! ### LinearConstraintFunction -/

/-- linear_constraint_function.hxx: the members. -/
structure LCF (V : Type) where
  shape : List Nat
  size : Nat
  constraints : List (Con V)
  valid : V
  invalid : V
  varList : List IV
  lookup : List (List Nat)

namespace LCF

/-- linear_constraint_function.hxx 656-660: the indicator variables of one constraint. -/
def collect : List IV → List IV → List IV
  | [], out => out
  | v :: vs, out => collect vs (if v ∈ out then out else out ++ [v])

omit [CommRing V] [LinearOrder V] in
/-- linear_constraint_function.hxx 655-661: the indicator variables of all constraints. -/
def collectAll : List (Con V) → List IV → List IV
  | [], out => out
  | c :: cs, out => collectAll cs (collect c.vars out)

/-- linear_constraint_function.hxx 438-472, 652-678: the constructors. -/
def make (sort : List IV → Option (List IV)) (shape : List Nat) (constraints : List (Con V)) (valid invalid : V) : Option (LCF V) :=
  (sort (collectAll constraints [])).map (fun varList =>
    { shape := shape, size := accumulateSize shape, constraints := constraints, valid := valid, invalid := invalid, varList := varList,
      lookup := constraints.map (fun c => c.vars.map (fun v => varList.idxOf v)) })

/-- linear_constraint_function.hxx 482-488: the loop. -/
def evalLoop (tol valid invalid : V) (states : List Nat) : List (Con V) → Option V
  | [] => some valid
  | c :: cs =>
    match c.eval states with
    | none => none
    | some weight => if weight > tol then some invalid else evalLoop tol valid invalid states cs

/-- linear_constraint_function.hxx 479-489 `operator()`. -/
def eval (tol : V) (f : LCF V) (states : List Nat) : Option V := evalLoop tol f.valid f.invalid states f.constraints

/-- linear_constraint_function.hxx 509-526 `min`, `max`. -/
def min_ (valid invalid : V) : V := if valid < invalid then valid else invalid

/-- linear_constraint_function.hxx 513-516 -/
def max_ (valid invalid : V) : V := if valid > invalid then valid else invalid

/-- linear_constraint_function.hxx 551-561: the loop; `k` is the number of the constraint, `capacity` the length of the result vectors. -/
def challengeLoop (capacity : Nat) (states : List Nat) (tolerance : V) : List (Con V) → Nat → List (Nat × V) → Option (List (Nat × V))
  | [], _, out => some out
  | c :: cs, k, out =>
    match c.eval states with
    | none => none
    | some weight =>
      if weight > tolerance then
        if out.length < capacity then challengeLoop capacity states tolerance cs (k + 1) (out ++ [(k, weight)]) else none
      else challengeLoop capacity states tolerance cs (k + 1) out

/-- linear_constraint_function.hxx 549-565 `challenge`. -/
def challenge (f : LCF V) (states : List Nat) (tolerance : V) : Option (List (Nat × V)) :=
  challengeLoop f.constraints.length states tolerance f.constraints 0 []

/-- linear_constraint_function.hxx 574-578: the left hand side for values of the indicator variables. -/
def relaxedLhs (labeling : List V) : List Nat → List V → V → Option V
  | [], _, r => some r
  | i :: is, cs, r =>
    match labeling[i]?, cs[0]? with
    | some y, some c => relaxedLhs labeling is (cs.drop 1) (r + y * c)
    | _, _ => none

/-- linear_constraint_function.hxx 582-616: the weight with which the constraint is entered. -/
def relaxedWeight (op : COp) (lhs bound tolerance : V) : Option V :=
  let weight := lhs - bound
  match op with
  | .lessEqual => if weight > tolerance then some weight else none
  | .equal => if weight > tolerance then some weight else if weight < -tolerance then some (-weight) else none
  | .greaterEqual => if weight < -tolerance then some (-weight) else none

/-- linear_constraint_function.hxx 571-618: the loop over constraints and rows of the lookup table. -/
def relaxedLoop (capacity : Nat) (labeling : List V) (tolerance : V) : List (Con V) → List (List Nat) → Nat → List (Nat × V) →
    Option (List (Nat × V))
  | [], _, _, out => some out
  | _ :: _, [], _, _ => none
  | c :: cs, row :: rows, k, out =>
    match relaxedLhs labeling row c.coeffs 0 with
    | none => none
    | some lhs =>
      match relaxedWeight c.op lhs c.bound tolerance with
      | some weight => if out.length < capacity then relaxedLoop capacity labeling tolerance cs rows (k + 1) (out ++ [(k, weight)]) else none
      | none => relaxedLoop capacity labeling tolerance cs rows (k + 1) out

/-- linear_constraint_function.hxx 567-622 `challengeRelaxed`. -/
def challengeRelaxed (f : LCF V) (labeling : List V) (tolerance : V) : Option (List (Nat × V)) :=
  relaxedLoop f.constraints.length labeling tolerance f.constraints f.lookup 0 []

/-- linear_constraint_function.hxx 681-727 -/
def sizes (f : LCF V) : Nat × Nat :=
  (1 + f.shape.length + f.constraints.length + 1 + f.constraints.length + (f.constraints.map (fun c => c.vars.length)).sum * 2 +
      (f.constraints.map (fun c => (c.vars.map (fun v => v.pairs.length)).sum)).sum * 2,
   f.constraints.length + 1 + 1 + (f.constraints.map (fun c => c.coeffs.length)).sum)

/-- linear_constraint_function.hxx 729-809 `serialize`. -/
def serialize (f : LCF V) : List Nat × List V :=
  ([f.shape.length] ++ f.shape ++ [f.constraints.length] ++ f.constraints.map (fun c => c.op.toNat) ++
    f.constraints.map (fun c => c.vars.length) ++
    f.constraints.flatMap (fun c => c.vars.flatMap (fun v => [v.op.toNat, v.pairs.length])) ++
    f.constraints.flatMap (fun c => c.vars.flatMap (fun v => v.pairs.flatMap (fun p => [p.1, p.2]))),
   f.constraints.map (fun c => c.bound) ++ [f.valid, f.invalid] ++ f.constraints.flatMap (fun c => c.coeffs))

/-- A loop that reads an entry for each of `n` objects. -/
def readMany {α β : Type} (r : List α → Option (β × List α)) : Nat → List α → Option (List β × List α)
  | 0, l => some ([], l)
  | n + 1, l =>
    match r l with
    | none => none
    | some (x, l) =>
      match readMany r n l with
      | none => none
      | some (xs, l) => some (x :: xs, l)

/-- A loop that reads an entry for each element of a list. -/
def readEach {α β γ : Type} (r : γ → List α → Option (β × List α)) : List γ → List α → Option (List β × List α)
  | [], l => some ([], l)
  | g :: gs, l =>
    match r g l with
    | none => none
    | some (x, l) =>
      match readEach r gs l with
      | none => none
      | some (xs, l) => some (x :: xs, l)

/-- linear_constraint_function.hxx 830-833: an operator. -/
def readCOp : List Nat → Option (COp × List Nat)
  | [] => none
  | n :: l => (COp.ofCode n).map (fun op => (op, l))

/-- linear_constraint_function.hxx 851-854: logical operator and number of pairs of an indicator variable. -/
def readHead : List Nat → Option ((LogOp × Nat) × List Nat)
  | n :: k :: l => (LogOp.ofCode n).map (fun op => ((op, k), l))
  | _ => none

/-- linear_constraint_function.hxx 866-873: the pairs of one indicator variable, added one by one. -/
def readPairs : Nat → IV → List Nat → Option (IV × List Nat)
  | 0, v, l => some (v, l)
  | n + 1, v, i :: s :: l => readPairs n (v.add i s) l
  | _ + 1, _, _ => none

/-- linear_constraint_function.hxx 864-876: one indicator variable. -/
def readIV (h : LogOp × Nat) (l : List Nat) : Option (IV × List Nat) :=
  (readPairs h.2 IV.empty l).map (fun r => (r.1.setOp h.1, r.2))

omit [LinearOrder V] in
/-- linear_constraint_function.hxx 826, 882, 905-907: the constraints are put together. -/
def assemble : List COp → List V → List (List IV) → List (List V) → Option (List (Con V))
  | [], [], [], [] => some []
  | op :: ops, b :: bs, v :: vs, c :: cs => (assemble ops bs vs cs).map (fun r => (({ Con.empty with op := op, bound := b } : Con V).addAll v c) :: r)
  | _, _, _, _ => none

/-- linear_constraint_function.hxx 811-910 `deserialize`. -/
def deserialize (sort : List IV → Option (List IV)) (ix : List Nat) (vs : List V) : Option (LCF V) :=
  match ix with
  | [] => none
  | dimension :: ix =>
    match readN dimension ix with
    | some (shape, n :: ix) =>
      match readMany readCOp n ix with
      | none => none
      | some (ops, ix) =>
        match readN n ix with
        | none => none
        | some (nums, ix) =>
          match readEach (readMany readHead) nums ix with
          | none => none
          | some (heads, ix) =>
            match readEach (readEach readIV) heads ix with
            | none => none
            | some (vars, _) =>
              match readN n vs with
              | some (bounds, valid :: invalid :: vs) =>
                match readEach readN nums vs with
                | none => none
                | some (coeffs, _) =>
                  match assemble ops bounds vars coeffs with
                  | none => none
                  | some constraints => make sort shape constraints valid invalid
              | _ => none
    | _ => none

end LCF

/-! ### LabelOrderFunction -/

/-- label_order_function.hxx: the members. -/
structure LabelOrder (V : Type) where
  n1 : Nat
  n2 : Nat
  size : Nat
  order : List V
  valid : V
  invalid : V
  constraints : List (Con V)
  varList : List IV

namespace LabelOrder

omit [LinearOrder V] in
/-- label_order_function.hxx 692-700: the variables of the constraint, with a sign. -/
def addVars (order : List V) (variable_ : Nat) (negate : Bool) : List Nat → Con V → Option (Con V)
  | [], c => some c
  | i :: is, c =>
    match order[i]? with
    | none => none
    | some o => addVars order variable_ negate is (c.add (IV.ofPair variable_ i .and_) (if negate then -o else o))

omit [LinearOrder V] in
/-- label_order_function.hxx 487-507, 680-700: the constructor with a container. -/
def make (n1 n2 : Nat) (order : List V) (valid invalid : V) : Option (LabelOrder V) :=
  match addVars order 0 false (List.range n1) { Con.empty with bound := 0, op := .lessEqual } with
  | none => none
  | some c =>
    match addVars order 1 true (List.range n2) c with
    | none => none
    | some c => some
      { n1 := n1, n2 := n2, size := n1 * n2, order := order, valid := valid, invalid := invalid, constraints := [c],
        varList := (List.range n1).map (fun i => IV.ofPair 0 i .and_) ++ (List.range n2).map (fun i => IV.ofPair 1 i .and_) }

omit [LinearOrder V] in
/-- label_order_function.hxx 509-531: the constructor with an iterator. -/
def makeFrom (n1 n2 : Nat) (order : List V) (valid invalid : V) : Option (LabelOrder V) :=
  match readN (max n1 n2) order with
  | none => none
  | some (order, _) => make n1 n2 order valid invalid

/-- label_order_function.hxx 538-545 `operator()`. -/
def eval (f : LabelOrder V) (states : List Nat) : Option V :=
  match states[0]?, states[1]? with
  | some a, some b =>
    match f.order[a]?, f.order[b]? with
    | some wa, some wb => if wa ≤ wb then some f.valid else some f.invalid
    | _, _ => none
  | _, _ => none

/-- label_order_function.hxx 548-552 -/
def shapeAt (f : LabelOrder V) (i : Nat) : Nat := if i = 0 then f.n1 else f.n2

/-- label_order_function.hxx 604-629 `challenge`. -/
def challenge (f : LabelOrder V) (states : List Nat) (tolerance : V) : Option (List (Nat × V)) :=
  match states[0]?, states[1]? with
  | some a, some b =>
    match f.order[a]?, f.order[b]? with
    | some wa, some wb => if wa - wb ≤ tolerance then some [] else some [(0, wa - wb)]
    | _, _ => none
  | _, _ => none

/-- label_order_function.hxx 636-638, 641-646: one of the two sums. -/
def relaxedSum (order labeling : List V) (offset : Nat) (negate : Bool) : List Nat → V → Option V
  | [], r => some r
  | i :: is, r =>
    match order[i]?, labeling[offset + i]? with
    | some o, some y => relaxedSum order labeling offset negate is (if negate then r - o * y else r + o * y)
    | _, _ => none

/-- label_order_function.hxx 631-669 `challengeRelaxed`. -/
def challengeRelaxed (f : LabelOrder V) (labeling : List V) (tolerance : V) : Option (List (Nat × V)) :=
  match relaxedSum f.order labeling f.n1 true (List.range f.n2) 0 with
  | none => none
  | some r =>
    match relaxedSum f.order labeling 0 false (List.range f.n1) r with
    | none => none
    | some total => if total > tolerance then some [(0, total)] else some []

/-- label_order_function.hxx 715-729 -/
def sizes (f : LabelOrder V) : Nat × Nat := (2 + 1, f.order.length + 2)

/-- label_order_function.hxx 731-755 -/
def serialize (f : LabelOrder V) : List Nat × List V := ([f.n1, f.n2, f.order.length], f.order ++ [f.valid, f.invalid])

/-- label_order_function.hxx 757-782 -/
def deserialize (ix : List Nat) (vs : List V) : Option (LabelOrder V) :=
  match ix with
  | n1 :: n2 :: k :: _ =>
    match readN k vs with
    | some (order, valid :: invalid :: _) => make n1 n2 order valid invalid
    | _ => none
  | _ => none

end LabelOrder

/-! ### NumLabelsLimitationFunction -/

/-- num_labels_limitation_function.hxx: the members. -/
structure NumLabels (V : Type) where
  base : Base
  maxUsed : Nat
  valid : V
  invalid : V
  constraints : List (Con V)
  varList : List IV

namespace NumLabels

/-- num_labels_limitation_function.hxx 627-633: the pairs of the indicator variable of label `i`. -/
def addPairs (b : Base) (i : Nat) : List Nat → IV → Option IV
  | [], v => some v
  | j :: js, v =>
    if b.same then addPairs b i js (v.add j i)
    else match b.shape[j]? with
      | none => none
      | some s => if s > i then addPairs b i js (v.add j i) else addPairs b i js v

/-- num_labels_limitation_function.hxx 622-636: the indicator variables. -/
def fill (b : Base) : List Nat → Option (List IV)
  | [] => some []
  | i :: is =>
    match addPairs b i (List.range b.numVariables) (IV.empty.setOp .or_) with
    | none => none
    | some v => (fill b is).map (v :: ·)

omit [LinearOrder V] in
/-- num_labels_limitation_function.hxx 638-645: the constraint. -/
def constraint (maxUsed : Nat) (vars : List IV) : Con V :=
  vars.foldl (fun c v => c.add v 1) { Con.empty with bound := (maxUsed : V), op := .lessEqual }

omit [LinearOrder V] in
/-- num_labels_limitation_function.hxx 454-483: the part of the constructors that follows the computation of the shape. -/
def make (b : Base) (maxUsed : Nat) (valid invalid : V) : Option (NumLabels V) :=
  (fill b (List.range b.maxNumLabels)).map (fun vars =>
    { base := b, maxUsed := maxUsed, valid := valid, invalid := invalid, constraints := [constraint maxUsed vars], varList := vars })

omit [LinearOrder V] in
/-- num_labels_limitation_function.hxx 452-468 -/
def ofShape (shape : List Nat) (maxUsed : Nat) (valid invalid : V) : Option (NumLabels V) := make (Base.ofShape shape) maxUsed valid invalid

omit [LinearOrder V] in
/-- num_labels_limitation_function.hxx 470-483 -/
def ofCounts (n k maxUsed : Nat) (valid invalid : V) : Option (NumLabels V) := (Base.ofCounts n k).bind (fun b => make b maxUsed valid invalid)

/-- num_labels_limitation_function.hxx 496-507: the loop. -/
def loop (maxUsed : Nat) (valid invalid : V) : Nat → List Nat → List Bool → Nat → Option V
  | 0, _, _, _ => some valid
  | _ + 1, [], _, _ => none
  | n + 1, s :: ss, used, found =>
    match used[s]? with
    | none => none
    | some true => loop maxUsed valid invalid n ss used found
    | some false => if found + 1 > maxUsed then some invalid else loop maxUsed valid invalid n ss (used.set s true) (found + 1)

/-- num_labels_limitation_function.hxx 490-509 `operator()`. -/
def eval (f : NumLabels V) (states : List Nat) : Option V :=
  loop f.maxUsed f.valid f.invalid f.base.numVariables states (List.replicate f.base.maxNumLabels false) 0

/-- num_labels_limitation_function.hxx 573-585: the loop; it stops when all labels are found. -/
def countLoop (maxNumLabels : Nat) : Nat → List Nat → List Bool → Nat → Option Nat
  | 0, _, _, found => some found
  | _ + 1, [], _, _ => none
  | n + 1, s :: ss, used, found =>
    match used[s]? with
    | none => none
    | some true => countLoop maxNumLabels n ss used found
    | some false => if found + 1 = maxNumLabels then some (found + 1) else countLoop maxNumLabels n ss (used.set s true) (found + 1)

/-- num_labels_limitation_function.hxx 567-600 `challenge`. -/
def challenge (f : NumLabels V) (states : List Nat) (tolerance : V) : Option (List (Nat × V)) :=
  match countLoop f.base.maxNumLabels f.base.numVariables states (List.replicate f.base.maxNumLabels false) 0 with
  | none => none
  | some found => if (found : V) - (f.maxUsed : V) ≤ tolerance then some [] else some [(0, (found : V) - (f.maxUsed : V))]

/-- num_labels_limitation_function.hxx 606-608: the sum. -/
def relaxedSum (labeling : List V) : List Nat → V → Option V
  | [], r => some r
  | i :: is, r =>
    match labeling[i]? with
    | none => none
    | some y => relaxedSum labeling is (r + y)

/-- num_labels_limitation_function.hxx 602-620 `challengeRelaxed`. -/
def challengeRelaxed (f : NumLabels V) (labeling : List V) (tolerance : V) : Option (List (Nat × V)) :=
  match relaxedSum labeling (List.range f.base.maxNumLabels) (-(f.maxUsed : V)) with
  | none => none
  | some weight => if weight > tolerance then some [(0, weight)] else some []

/-- num_labels_limitation_function.hxx 648-665 -/
def sizes (f : NumLabels V) : Nat × Nat := (1 + 1 + (if f.base.same then 1 else f.base.shape.length) + 1, 2)

/-- num_labels_limitation_function.hxx 667-694 -/
def serialize (f : NumLabels V) : List Nat × List V :=
  ([if f.base.same then 1 else 0, f.base.numVariables] ++ (if f.base.same then [f.base.maxNumLabels] else f.base.shape) ++ [f.maxUsed],
   [f.valid, f.invalid])

/-- num_labels_limitation_function.hxx 696-729 -/
def deserialize (ix : List Nat) (vs : List V) : Option (NumLabels V) :=
  match ix with
  | same :: n :: ix =>
    match readN (if same ≠ 0 then 1 else n) ix with
    | some (shape, maxUsed :: _) =>
      match vs with
      | valid :: invalid :: _ =>
        if same ≠ 0 then
          match shape[0]? with
          | none => none
          | some k => ofCounts n k maxUsed valid invalid
        else ofShape shape maxUsed valid invalid
      | _ => none
    | _ => none
  | _ => none

end NumLabels
end
end LinCon
end OpenGM
