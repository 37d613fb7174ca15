/-
Specification: discrete graphical models as plain mathematics.
Nothing here refers to the model of the C++ code.
-/
namespace OpenGM.Spec

/-- A binary operation with a distinguished start element (the OPERATOR template argument seen as algebra). -/
structure Operation (V : Type) where
  neutral : V
  op : V → V → V

/-- The laws of a commutative monoid. -/
structure Operation.IsCommMonoid {V : Type} (o : Operation V) : Prop where
  comm : ∀ a b, o.op a b = o.op b a
  assoc : ∀ a b c, o.op (o.op a b) c = o.op a (o.op b c)
  neutral_left : ∀ a, o.op o.neutral a = a

/-- A function of finitely many discrete variables: number of labels per argument, and a value per label tuple. -/
structure Table (V : Type) where
  shape : List Nat
  table : List Nat → V

/-- `c` is a tuple of labels below `shape`. -/
def InShape : List Nat → List Nat → Prop
  | [], [] => True
  | n :: shape, l :: c => l < n ∧ InShape shape c
  | _, _ => False

/-- A term of the objective: a list of variables and a table giving a value for each tuple of labels. -/
structure Term (V : Type) where
  vars : List Nat
  table : List Nat → V

/-- A factorised function of discrete variables: the number of labels of each variable and the terms. -/
structure Problem (V : Type) where
  numLabels : List Nat
  terms : List (Term V)

/-- A labeling assigns to each variable of the problem a label in range. Given as a list, position = variable. -/
def Problem.Labeling {V : Type} (p : Problem V) (x : List Nat) : Prop :=
  x.length = p.numLabels.length ∧ ∀ v l n : Nat, x[v]? = some l → p.numLabels[v]? = some n → l < n

/-- The labels that labeling `x` gives to the variables `vs`. -/
def restrict (x : List Nat) (vs : List Nat) : List Nat := vs.map (fun v => x.getD v 0)

/-- Value of one term under labeling `x`. -/
def Term.value {V : Type} (t : Term V) (x : List Nat) : V := t.table (restrict x t.vars)

/-- The objective: all term values combined, starting at the neutral element, in the order of the terms. -/
def Problem.energy {V : Type} (o : Operation V) (p : Problem V) (x : List Nat) : V :=
  (p.terms.map (fun t => t.value x)).foldl o.op o.neutral

end OpenGM.Spec
