import Verif.Spec.Tuples
import Verif.Spec.Trees
/-
Specification: marginals of a graphical model, and the algebra in which belief propagation computes them. Nothing here refers to the model of the
C++ code.
-/
namespace OpenGM.Spec
variable {V : Type}

/-- The values `P` with the operation `o` and the accumulation `acc` are a commutative semiring, up to the neutral element of `acc`, which need not be
a value itself (infinity for minimum and sum, 0 for sum and product). -/
structure SumProduct (o : Operation V) (acc : V → V → V) (zero : V) (P : V → Prop) : Prop where
  monoid : o.IsCommMonoid
  value_neutral : P o.neutral
  value_op : ∀ {a b}, P a → P b → P (o.op a b)
  value_acc : ∀ {a b}, P a → P b → P (acc a b)
  acc_comm : ∀ {a b}, P a → P b → acc a b = acc b a
  acc_assoc : ∀ {a b c}, P a → P b → P c → acc (acc a b) c = acc a (acc b c)
  acc_zero : ∀ {a}, P a → acc a zero = a
  distrib : ∀ {a b c}, P a → P b → P c → o.op a (acc b c) = acc (o.op a b) (o.op a c)

/-- What is needed to normalise: unless it is skipped, `iop v` multiplies with an invertible value and takes `v` to the neutral element. -/
structure Division (o : Operation V) (iop : V → V → V) (skip : V → Bool) (P : V → Prop) : Prop where
  unit : ∀ v, P v → skip v = false → ∃ c d, P c ∧ P d ∧ o.op c d = o.neutral ∧ ∀ x, P x → iop v x = o.op c x
  self : ∀ v, P v → skip v = false → iop v v = o.neutral

/-- All values of all terms are in `P`. -/
def Problem.Values (P : V → Prop) (p : Problem V) : Prop := ∀ t ∈ p.terms, ∀ c, InShape (restrict p.numLabels t.vars) c → P (t.table c)

/-- Accumulate a list of values. -/
def accumulate (acc : V → V → V) (zero : V) (l : List V) : V := l.foldl (fun s a => acc a s) zero

/-- The marginal of the variables `vs` at the labels `t`: the objective accumulated over all labelings that give the labels `t` to the variables `vs`. -/
def Problem.marginal (o : Operation V) (acc : V → V → V) (zero : V) (p : Problem V) (vs t : List Nat) : V :=
  accumulate acc zero (((allTuples p.numLabels).filter (fun x => decide (restrict x vs = t))).map (p.energy o))

/-- The objective accumulated over all labelings. -/
def Problem.partition (o : Operation V) (acc : V → V → V) (zero : V) (p : Problem V) : V := accumulate acc zero ((allTuples p.numLabels).map (p.energy o))

/-- `out` lists the marginals of the variables `vs` at the labels `ts`, each divided by `c`. -/
def Problem.MarginalsOver (o : Operation V) (acc : V → V → V) (zero : V) (p : Problem V) (vs : List Nat) (ts : List (List Nat)) (c : V) (out : List V) : Prop :=
  out.length = ts.length ∧ ∀ (k : Nat) (t : List Nat) (b : V), ts[k]? = some t → out[k]? = some b → p.marginal o acc zero vs t = o.op c b

/-- All variables and terms of the model are connected with `a` (a variable or a term). -/
def Problem.Connected (p : Problem V) (a : Nat ⊕ Nat) : Prop :=
  (∀ u, u < p.numLabels.length → (bipartite p.scopes).Reachable a (.inl u)) ∧ ∀ g, g < p.terms.length → (bipartite p.scopes).Reachable a (.inr g)

end OpenGM.Spec
