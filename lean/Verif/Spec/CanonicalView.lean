import Verif.Spec.Energy
/-
Specification of the canonical form of a problem: the terms with the same variables are combined to one term.
-/
namespace OpenGM.Spec
variable {V : Type}

/-- The terms on the variables `vs`, combined to one term. -/
def combined (o : Operation V) (p : Problem V) (vs : List Nat) : Term V :=
  ⟨vs, fun c => ((p.terms.filter (fun t => t.vars = vs)).map (fun t => t.table c)).foldl o.op o.neutral⟩

/-- `scopes` lists the single variables in order, then, in lexicographical order and each one once, the variable lists with other than one variable on which
there are terms. -/
def CanonicalScopes (p : Problem V) (scopes : List (List Nat)) : Prop :=
  ∃ ks : List (List Nat), scopes = (List.range p.numLabels.length).map (fun v => [v]) ++ ks ∧ ks.Pairwise (fun a b => List.Lex (· < ·) a b) ∧
    ∀ vs, vs ∈ ks ↔ vs.length ≠ 1 ∧ ∃ t ∈ p.terms, t.vars = vs

end OpenGM.Spec
