import Verif.Spec.Energy
/-
Specification: relabelling some variables of a labeling, operations with inverse, and orders on values.
-/
namespace OpenGM.Spec

/-- An operation with a right inverse operation (`iop`: difference, quotient). -/
structure InvOperation (V : Type) extends Operation V where
  iop : V → V → V

/-- Commutative monoid in which `iop` undoes `op`. -/
structure InvOperation.Laws {V : Type} (o : InvOperation V) : Prop extends o.toOperation.IsCommMonoid where
  cancel : ∀ a b, o.iop (o.op a b) b = a

/-- `y` is labeling `x` with the variables `vars` relabelled to `labels` (position by position). -/
structure Relabelled (x vars labels y : List Nat) : Prop where
  length : y.length = x.length
  changed : ∀ i v l : Nat, vars[i]? = some v → labels[i]? = some l → y[v]? = some l
  others : ∀ v : Nat, v ∉ vars → y[v]? = x[v]?

/-- `y` agrees with `x` outside `vars`. -/
def AgreeOutside (vars x y : List Nat) : Prop := y.length = x.length ∧ ∀ v : Nat, v ∉ vars → y[v]? = x[v]?

/-- A strict order given as a Boolean function ("better than"). -/
structure StrictOrder {V : Type} (better : V → V → Bool) : Prop where
  irrefl : ∀ a, better a a = false
  trans : ∀ a b c, better a b = true → better b c = true → better a c = true

/-- If combining with `r` makes `a` better than `b`, then `a` was better. (Sums; products of nonnegative numbers.) -/
def Reflects {V : Type} (o : Operation V) (better : V → V → Bool) : Prop :=
  ∀ r a b, better (o.op r a) (o.op r b) = true → better a b = true

/-- Combining with `r` preserves strict improvement. (Sums; products of positive numbers.) -/
def Preserves {V : Type} (o : Operation V) (better : V → V → Bool) : Prop :=
  ∀ r a b, better a b = true → better (o.op r a) (o.op r b) = true

/-- The part `i` of a combined value can be taken out with `iop`, whenever something is better than `i` and the exceptional
case `exception` (total value 0 of a product) does not apply. -/
def Replaceable {V : Type} (o : InvOperation V) (better : V → V → Bool) (exception : V → Bool) : Prop :=
  ∀ r i b, better b i = true → exception (o.op r i) = false → o.iop (o.op r i) i = r

/-- The labels `ls` are in range for the variables `vars`. -/
def InRange (numLabels vars ls : List Nat) : Prop :=
  ls.length = vars.length ∧ ∀ i v l n : Nat, vars[i]? = some v → ls[i]? = some l → numLabels[v]? = some n → l < n

/-- No labeling that differs from `x` only on `vars` is better. -/
def LocallyOptimal {V : Type} (o : Operation V) (better : V → V → Bool) (p : Problem V) (vars x : List Nat) : Prop :=
  ∀ z, p.Labeling z → AgreeOutside vars x z → better (p.energy o z) (p.energy o x) = false

end OpenGM.Spec
