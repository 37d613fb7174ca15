import Mathlib.Data.List.Basic
import Mathlib.Data.List.Perm.Basic
/-
Specification of paths, chains and grids of variables, for C77. A factor graph is given by its number of variables and the list
of the scopes of its factors; nothing here refers to the model of the code.
-/
namespace OpenGM.Spec

/-- Two different variables which occur in a common factor. -/
def Neighbours (scopes : List (List Nat)) (a b : Nat) : Prop := a ≠ b ∧ ∃ s ∈ scopes, a ∈ s ∧ b ∈ s

/-- `p` is a path from `s` to `t`: consecutive entries are neighbours, and all entries satisfy `ok`. -/
structure PathBetween (scopes : List (List Nat)) (ok : Nat → Prop) (s t : Nat) (p : List Nat) : Prop where
  starts : p.head? = some s
  ends : p.getLast? = some t
  allowed : ∀ x ∈ p, ok x
  steps : p.IsChain (Neighbours scopes)

/-- A path between `s` and `t` with the least possible number of entries. -/
def ShortestBetween (scopes : List (List Nat)) (ok : Nat → Prop) (s t : Nat) (p : List Nat) : Prop :=
  PathBetween scopes ok s t p ∧ ∀ q, PathBetween scopes ok s t q → p.length ≤ q.length

/-- The unordered pairs of consecutive entries. -/
def links : List Nat → List (List Nat)
  | a :: b :: rest => [min a b, max a b] :: links (b :: rest)
  | _ => []

/-- `p` lists all variables, once each, such that the factors of order two are exactly the pairs of consecutive entries of `p`,
one factor for each, and no factor has a higher order. -/
structure ChainOrder (n : Nat) (scopes : List (List Nat)) (p : List Nat) : Prop where
  nonempty : 0 < n
  all : p.Perm (List.range n)
  order : ∀ s ∈ scopes, s.length ≤ 2
  factors : (scopes.filter (fun s => s.length = 2)).Perm (links p)

/-- The unordered pairs of entries of two successive rows in the same column. -/
def columnLinks : List (List Nat) → List (List Nat)
  | r :: r' :: rest => List.zipWith (fun a b => [min a b, max a b]) r r' ++ columnLinks (r' :: rest)
  | _ => []

/-- The matrix `m` (rows of equal length) lists all variables, once each, such that the factors of order two are exactly the pairs
of entries next to each other in a row or in a column. -/
structure GridOrder (n : Nat) (scopes : List (List Nat)) (m : List (List Nat)) : Prop where
  nonempty : 0 < n
  rectangular : ∃ c, ∀ r ∈ m, r.length = c
  all : m.flatten.Perm (List.range n)
  order : ∀ s ∈ scopes, s.length ≤ 2
  factors : (scopes.filter (fun s => s.length = 2)).Perm (m.flatMap links ++ columnLinks m)

end OpenGM.Spec
