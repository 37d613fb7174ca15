import Verif.Spec.Energy
/-
Specification: building a problem step by step. A client adds variables, functions and factors. Functions are
referred to by handles: the k-th function added has handle k.
-/
namespace OpenGM.Spec

/-- Calls of a client that builds a model. `ty` is the position of the function's class in the type list. -/
inductive BuildOp (V : Type) where
  | addVariable (numLabels : Nat)
  | addFunction (ty : Nat) (f : Table V)
  | addSharedFunction (ty : Nat) (f : Table V)
  | addFactor (handle : Nat) (vars : List Nat)

/-- What the client has built so far. -/
structure Built (V : Type) where
  numLabels : List Nat
  handles : List (Table V)
  terms : List (Term V)

def Built.empty {V : Type} : Built V := ⟨[], [], []⟩

/-- The problem that has been built. -/
def Built.problem {V : Type} (b : Built V) : Problem V := ⟨b.numLabels, b.terms⟩

/-- Preconditions of a call: the class is in the type list; the function has been added before; the variables are strictly
increasing existing variables; the function has the shape given by the variables' numbers of labels. -/
def BuildOp.Valid {V : Type} (nTypes : Nat) (b : Built V) : BuildOp V → Prop
  | .addVariable _ => True
  | .addFunction ty _ => ty < nTypes
  | .addSharedFunction ty _ => ty < nTypes
  | .addFactor h vars => vars.Pairwise (· < ·) ∧ (∀ v ∈ vars, v < b.numLabels.length) ∧
      ∃ f, b.handles[h]? = some f ∧ f.shape = restrict b.numLabels vars

/-- Effect of a call. -/
def BuildOp.apply {V : Type} (b : Built V) : BuildOp V → Built V
  | .addVariable n => { b with numLabels := b.numLabels ++ [n] }
  | .addFunction _ f => { b with handles := b.handles ++ [f] }
  | .addSharedFunction _ f => { b with handles := b.handles ++ [f] }
  | .addFactor h vars =>
    match b.handles[h]? with
    | some f => { b with terms := b.terms ++ [⟨vars, f.table⟩] }
    | none => b

/-- Every call of the history meets its precondition. -/
def ValidHistory {V : Type} (nTypes : Nat) : Built V → List (BuildOp V) → Prop
  | _, [] => True
  | b, op :: ops => op.Valid nTypes b ∧ ValidHistory nTypes (op.apply b) ops

/-- What has been built after a history. -/
def builtAfter {V : Type} (ops : List (BuildOp V)) : Built V := ops.foldl BuildOp.apply Built.empty

end OpenGM.Spec
