import Mathlib.Data.List.Forall2
/-
Specification: decompositions of a model into submodels, as observed through the lists of the decomposition object.

A variable of a submodel (a copy) is given by the pair (submodel, number within the submodel).
-/
namespace OpenGM.Spec

/-- A copy of a variable. -/
structure SubVariable where
  model : Nat
  id : Nat
  deriving DecidableEq

/-- A copy of a factor: its submodel, its number within the submodel (`none`: not set) and the variables of the submodel it depends on. -/
structure SubFactor where
  model : Nat
  id : Option Nat
  indices : List Nat
  deriving DecidableEq

/-- Variable `k` of submodel `m` is listed as a copy of the variable `v`. -/
def CopyOf (varLists : List (List SubVariable)) (m k v : Nat) : Prop :=
  ∃ l : List SubVariable, varLists[v]? = some l ∧ (⟨m, k⟩ : SubVariable) ∈ l

/-- The copies are numbered consecutively in every submodel: with `counts[m] = n`, submodel `m` has exactly the variables 0, ..., n-1, and each is listed
once as a copy of one variable. -/
structure Numbered (varLists : List (List SubVariable)) (counts : List Nat) : Prop where
  range : ∀ m k, (∃ v, CopyOf varLists m k v) ↔ ∃ n, counts[m]? = some n ∧ k < n
  unique : ∀ m k v v', CopyOf varLists m k v → CopyOf varLists m k v' → v = v'
  once : ∀ l ∈ varLists, l.Nodup

/-- The submodel variables `ids` of submodel `m` are copies of the variables `vars`, in this order. -/
def CopiesOf (varLists : List (List SubVariable)) (m : Nat) (ids vars : List Nat) : Prop :=
  List.Forall₂ (fun k v => CopyOf varLists m k v) ids vars

/-- `π` renumbers 0, ..., n-1. -/
structure Renumbers (n : Nat) (π : Nat → Nat) : Prop where
  lt : ∀ k, k < n → π k < n
  inj : ∀ k k', k < n → k' < n → π k = π k' → k = k'

/-- The submodel and the variables of a sub-factor. -/
def place (s : SubFactor) : Nat × List Nat := (s.model, s.indices)

/-- The list has a unary sub-factor at variable `k` of submodel `m`. -/
def HasUnary (l : List SubFactor) (m k : Nat) : Prop := ∃ s ∈ l, s.model = m ∧ s.indices = [k]

/-- All copies of `v` have a unary sub-factor in the list. -/
def Covered (varLists : List (List SubVariable)) (l : List SubFactor) (v : Nat) : Prop := ∀ m k, CopyOf varLists m k v → HasUnary l m k

/-- `l'` is `l` with one unary sub-factor for each of some copies of `v` that have none in `l`. -/
structure Extends (varLists : List (List SubVariable)) (v : Nat) (l l' : List SubFactor) : Prop where
  ext : ∃ ext, l' = l ++ ext ∧ (ext.map place).Nodup ∧ ∀ s ∈ ext, ∃ k, s.indices = [k] ∧ CopyOf varLists s.model k v ∧ ¬ HasUnary l s.model k

end OpenGM.Spec
