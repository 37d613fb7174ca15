import Verif.Spec.Build
/-
Specification: several model objects with value semantics. Objects are numbered in the order of their construction. An object has a list of
function classes (its type list; classes are numbers) that never changes, and a problem built so far.
-/
namespace OpenGM.Spec

/-- An object: the classes of its type list, the classes of which it may hold functions, and what has been built. -/
structure ModelObject (V : Type) where
  classes : List Nat
  used : List Nat
  built : Built V

/-- Calls of a client. -/
inductive StoreOp (V : Type) where
  /-- default constructor -/
  | create (classes : List Nat)
  /-- constructor from numbers of labels -/
  | createSpace (classes numLabels : List Nat)
  /-- a call on object `a` -/
  | build (a : Nat) (op : BuildOp V)
  /-- copy construction of a new object from `a` -/
  | copy (a : Nat)
  /-- `a = b` -/
  | assign (a b : Nat)
  /-- destructor -/
  | destroy (a : Nat)

/-- The class of the function that a call adds. -/
def BuildOp.class {V : Type} (classes : List Nat) : BuildOp V → List Nat
  | .addFunction ty _ => (classes[ty]?).toList
  | .addSharedFunction ty _ => (classes[ty]?).toList
  | _ => []

/-- The content of `a` after `a = b`: what has been built in `b`. If the type lists differ, functions that `a` held of classes not in the
type list of `b` are kept (they occur in no factor). -/
def ModelObject.assign {V : Type} (A B : ModelObject V) : ModelObject V :=
  ⟨A.classes, if A.classes = B.classes then B.used else B.used ++ A.used.filter (fun c => decide (c ∉ B.classes)), B.built⟩

/-- Effect of a call. `none` marks destroyed objects. -/
def StoreOp.apply {V : Type} (s : List (Option (ModelObject V))) : StoreOp V → List (Option (ModelObject V))
  | .create classes => s ++ [some ⟨classes, [], Built.empty⟩]
  | .createSpace classes numLabels => s ++ [some ⟨classes, [], ⟨numLabels, [], []⟩⟩]
  | .build a op =>
    match s[a]? with
    | some (some A) => s.set a (some ⟨A.classes, A.used ++ op.class A.classes, op.apply A.built⟩)
    | _ => s
  | .copy a =>
    match s[a]? with
    | some (some A) => s ++ [some A]
    | _ => s
  | .assign a b =>
    match s[a]?, s[b]? with
    | some (some A), some (some B) => s.set a (some (A.assign B))
    | _, _ => s
  | .destroy a => s.set a none

/-- Preconditions: objects exist; classes of a type list are distinct; calls are valid; if the type lists differ, the classes of functions of
the source are in the type list of the target. -/
def StoreOp.Valid {V : Type} (s : List (Option (ModelObject V))) : StoreOp V → Prop
  | .create classes => classes.Nodup
  | .createSpace classes _ => classes.Nodup
  | .build a op => ∃ A, s[a]? = some (some A) ∧ op.Valid A.classes.length A.built
  | .copy a => ∃ A, s[a]? = some (some A)
  | .assign a b => ∃ A B, s[a]? = some (some A) ∧ s[b]? = some (some B) ∧ (A.classes = B.classes ∨ ∀ c ∈ B.used, c ∈ A.classes)
  | .destroy a => ∃ A, s[a]? = some (some A)

def ValidStoreHistory {V : Type} : List (Option (ModelObject V)) → List (StoreOp V) → Prop
  | _, [] => True
  | s, op :: ops => op.Valid s ∧ ValidStoreHistory (op.apply s) ops

/-- All objects after a history. -/
def storeAfter {V : Type} (ops : List (StoreOp V)) : List (Option (ModelObject V)) := ops.foldl StoreOp.apply []

/-- The call does not change object `c`. -/
def StoreOp.Avoids {V : Type} (c : Nat) : StoreOp V → Prop
  | .build a _ => a ≠ c
  | .assign a _ => a ≠ c
  | .destroy a => a ≠ c
  | _ => True

end OpenGM.Spec
