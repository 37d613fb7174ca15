import Verif.Model.Basic
/-
Model of include/opengm/graphicalmodel/space: DiscreteSpace, SimpleDiscreteSpace, GridSpace, VectorViewSpace, ViewSpace and SpaceBase. The types of indices and labels are unsigned types; a value that is
converted to such a type is taken modulo its number of values. Assertions are not checked (NDEBUG). static_simplediscretespace.hxx is not modelled: `return static_cast<L> LABELS;` (line 96) does not compile.
GridSpace::numberOfLabels(x, y) is declared and not defined, so it is not modelled.
-/
namespace OpenGM
namespace Spaces

/-- The numbers of values of the template arguments `I` (IndexType) and `L` (LabelType). -/
structure Types where
  I : Nat
  L : Nat

/-- A space object. A VectorViewSpace holds a pointer to a vector, a ViewSpace one to the space of another model: the position in the memory, `none` for NULL. -/
inductive Space where
  | discrete (numbersOfLabels : List Nat)
  | simple (numberOfVariables numberOfLabels : Nat)
  | grid (dimX dimY numberOfStates : Nat)
  | vectorView (vector : Option Nat)
  | view (space : Option Nat)
  deriving DecidableEq

/-- The objects the views refer to. The space that a ViewSpace refers to is not a view itself (simplification). -/
structure Memory where
  vectors : List (List Nat)
  spaces : List Space

/-- discretespace.hxx 37-41 -/
def discrete : Space := .discrete []

/-- discretespace.hxx 53-64 -/
def discreteOf (T : Types) (ns : List Nat) : Space := .discrete (ns.map (· % T.L))

/-- simplediscretespace.hxx 34-39 -/
def simple : Space := .simple 0 0

/-- simplediscretespace.hxx 41-50 -/
def simpleOf (T : Types) (n l : Nat) : Space := .simple (n % T.I) (l % T.L)

/-- grid_space.hxx 37-43 -/
def grid : Space := .grid 0 0 0

/-- grid_space.hxx 45-55 -/
def gridOf (T : Types) (x y l : Nat) : Space := .grid (x % T.I) (y % T.I) (l % T.L)

/-- vector_view_space.hxx 36-40 and 42-51: the constructors; the argument is the position of the vector. -/
def vectorView (p : Option Nat) : Space := .vectorView p

/-- viewspace.hxx 37-48: the constructors; the argument is the position of the space of the model. -/
def view (p : Option Nat) : Space := .view p

/-- numberOfVariables: discretespace.hxx 114-119, simplediscretespace.hxx 94-98, grid_space.hxx 71-75; for spaces which are no views. -/
def baseVariables (T : Types) : Space → Option Nat
  | .discrete ns => some (ns.length % T.I)
  | .simple n _ => some n
  | .grid x y _ => some (x * y % T.I)
  | _ => none

/-- numberOfLabels(dimension): discretespace.hxx 121-129, simplediscretespace.hxx 100-107, grid_space.hxx 95-102; for spaces which are no views. -/
def baseLabels (T : Types) (v : Nat) : Space → Option Nat
  | .discrete ns => ns[v % T.I]?
  | .simple _ l => some l
  | .grid _ _ l => some l
  | _ => none

/-- numberOfVariables, also of vector_view_space.hxx 61-66 and viewspace.hxx 69-75; `none` is undefined behaviour. -/
def numberOfVariables (T : Types) (m : Memory) : Space → Option Nat
  | .vectorView none => none
  | .vectorView (some p) => m.vectors[p]?.map (fun ns => ns.length % T.I)
  | .view none => none
  | .view (some p) =>
    match m.spaces[p]? with
    | none => none
    | some s => baseVariables T s
  | s => baseVariables T s

/-- numberOfLabels, also of vector_view_space.hxx 68-76 and viewspace.hxx 77-86; `none` is undefined behaviour. -/
def numberOfLabels (T : Types) (m : Memory) (v : Nat) : Space → Option Nat
  | .vectorView none => none
  | .vectorView (some p) =>
    match m.vectors[p]? with
    | none => none
    | some ns => ns[v % T.I]?
  | .view none => none
  | .view (some p) =>
    match m.spaces[p]? with
    | none => none
    | some s => baseLabels T (v % T.I) s
  | s => baseLabels T v s

/-- space_base.hxx 32-36: the loop. -/
def simpleLoop (T : Types) (m : Memory) (s : Space) (l : Nat) : List Nat → Option Bool
  | [] => some true
  | i :: is =>
    match numberOfLabels T m (i % T.I) s with
    | none => none
    | some k => if l ≠ k then some false else simpleLoop T m s l is

/-- isSimpleSpace: space_base.hxx 27-39, simplediscretespace.hxx 109-113, grid_space.hxx 104-108. The number of labels of the first variable is stored in an IndexType. -/
def isSimpleSpace (T : Types) (m : Memory) : Space → Option Bool
  | .simple _ _ => some true
  | .grid _ _ _ => some true
  | s =>
    match numberOfVariables T m s, numberOfLabels T m 0 s with
    | some n, some l => simpleLoop T m s (l % T.I) (List.range' 1 (n - 1))
    | _, _ => none

/-- addVariable: discretespace.hxx 103-112, simplediscretespace.hxx 81-92, space_base.hxx 51-59 (grid), vector_view_space.hxx 53-59, viewspace.hxx 60-67, where the exception is made and not
thrown, so that the end of a function with a result is reached: undefined behaviour. -/
def addVariable (T : Types) (s : Space) (k : Nat) : Outcome Space Nat :=
  match s with
  | .discrete ns => .ok (ns.length % T.I) (.discrete (ns ++ [k % T.L]))
  | .simple n l => if k % T.L ≠ l then .throw s else .ok (((n + 1) % T.I + T.I - 1) % T.I) (.simple ((n + 1) % T.I) l)
  | .grid _ _ _ => .throw s
  | .vectorView _ => .throw s
  | .view _ => .ub

/-- simplediscretespace.hxx 62-67: the loop. -/
def checkLoop (T : Types) (l : Nat) : List Nat → Bool
  | [] => true
  | k :: ks => if l ≠ k % T.L then false else checkLoop T l ks

/-- assignDense(begin, end): discretespace.hxx 91-100, simplediscretespace.hxx 53-68, space_base.hxx 41-49 (the others). -/
def assignDense (T : Types) (s : Space) (ns : List Nat) : Outcome Space Unit :=
  match s with
  | .discrete _ => .ok () (.discrete (ns.map (· % T.L)))
  | .simple _ _ =>
    match ns with
    | [] => .ub
    | l :: _ => if checkLoop T (l % T.L) ns then .ok () (.simple (ns.length % T.I) (l % T.L)) else .throw (.simple (ns.length % T.I) (l % T.L))
  | _ => .throw s

/-- discretespace.hxx 69-79 `assign(begin, end)` -/
def assignRange (T : Types) (ns : List Nat) : Space := .discrete (ns.map (· % T.L))

/-- simplediscretespace.hxx 70-78 `assign(numberOfVariables, numberOfLabels)` -/
def assignUniform (T : Types) (n l : Nat) : Space := .simple (n % T.I) (l % T.L)

/-- grid_space.hxx 57-68 `assign(dimX, dimY, numberOfLabels)` -/
def assignGrid (T : Types) (x y l : Nat) : Space := .grid (x % T.I) (y % T.I) (l % T.L)

/-- viewspace.hxx 50-57 `assign(gm)` -/
def assignView (p : Nat) : Space := .view (some p)

/-- discretespace.hxx 81-88 `reserve`: the capacity is not modelled. -/
def reserve (s : Space) (_n : Nat) : Space := s

end Spaces
end OpenGM
