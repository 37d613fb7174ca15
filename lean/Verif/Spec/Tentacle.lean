import Verif.Spec.Fixing
/-
Specification for C28, tentacles: a free variable is a leaf if at most one term links it to other free variables.
-/
namespace OpenGM.Spec

/-- The number of free variables of a term. -/
def freeCount (fix : List (Option Nat)) (vars : List Nat) : Nat := vars.countP (fun v => fix[v]? == some none)

/-- The number of terms with the variable and at least one more free variable. -/
def linkCount {V : Type} (p : Problem V) (fix : List (Option Nat)) (v : Nat) : Nat :=
  p.terms.countP (fun t => decide (v ∈ t.vars) && decide (2 ≤ freeCount fix t.vars))

/-- The variable is free and at most one term links it to other free variables. -/
def Leaf {V : Type} (p : Problem V) (fix : List (Option Nat)) (v : Nat) : Prop := Free fix v ∧ linkCount p fix v ≤ 1

end OpenGM.Spec
