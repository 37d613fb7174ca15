import Verif.Lemmas.PrimalBound
import Verif.Lemmas.Built
import Verif.Props.ExplicitModel
import Mathlib.Algebra.Ring.Int.Defs
/-
C92: the buffered bound of fractional labelings (PrimalLPBound).
-/
namespace OpenGM
namespace PrimalBound
open Spec Spec.PrimalBound
variable {R S : Type} [DecidableEq R] [Zero R] [Add R] [Mul R]

/-- The model is a model built by valid calls; the constructor succeeds if and only if no two factors of one variable have the same variable, otherwise it throws. -/
theorem C92_construct (e : Env R S) {gm : GM R} {p : Problem R} (hb : BuiltModel gm p) :
    ((∃ s, construct e gm = .ok s ()) ↔ OneUnary p) ∧ (construct e gm = .throw () ↔ ¬ OneUnary p) := by
  obtain ⟨h1, h2⟩ := construct_spec e hb.represents
  by_cases h : OneUnary p
  · obtain ⟨s, hs, _⟩ := h1 h
    rw [hs]
    simp [h]
  · rw [h2 h]
    simp [h]

/-- C92: after the construction and after any history of calls of setVariable, getVariable, getVariableValue, getFactorValue (for factors of two variables),
getTotalValue (for models with factors of one and two variables) and getFactorVariable, every call succeeds, and the values that getVariable, getVariableValue,
getFactorValue and getTotalValue return are those of the weights that were set last (zero at first): buffered values are never out of date. Missing for the full
claim: the answers of getFactorVariable (`C92_violated_stale`, `C92_violated_other`); and it is assumed that the memory of a temporary object that was destroyed can
still be read (`C92_violated_dangling`). -/
theorem C92_values_partial (e : Env R S) (hlive : e.lives = true) {gm : GM R} {p : Problem R} (hb : BuiltModel gm p) (ho : OneUnary p) (cs : List (Call R))
    (hc : ∀ c ∈ cs, Allowed p c) :
    ∃ s as s', construct e gm = .ok s () ∧ run e gm s cs = .ok as s' ∧ ExpectedAll e.solve p (p.numLabels.map (fun n => List.replicate n 0)) cs as := by
  obtain ⟨s, hs, hi, _⟩ := (construct_spec e hb.represents).1 ho
  obtain ⟨as, s', h1, h2, _⟩ := run_spec hlive hb.represents ho cs s _ hi hc
  exact ⟨s, as, s', hs, h1, h2⟩

/-- A history of calls of setVariable keeps all values unbuffered. -/
theorem run_set {e : Env R S} {gm : GM R} {p : Problem R} (hr : Represents gm p) : ∀ (vs : List (Nat × List R)) (s : Bound R S) (us : List (List R)), Inv e p s us →
    s.last = none → (∀ b ∈ s.buffered, b = e.nan) → (∀ x ∈ vs, Allowed p (.setVariable x.1 x.2)) →
    ∃ as s', run e gm s (vs.map (fun x => .setVariable x.1 x.2)) = .ok as s' ∧ Inv e p s' (vs.foldl (fun us x => after p us (.setVariable x.1 x.2)) us) ∧
      s'.last = none ∧ ∀ b ∈ s'.buffered, b = e.nan
  | [], s, us, hi, hl, hn, _ => ⟨[], s, rfl, hi, hl, hn⟩
  | x :: vs, s, us, hi, hl, hn, h => by
    obtain ⟨n, a1, a2⟩ := h x (by simp)
    obtain ⟨s1, g1, g2, g3, g4⟩ := setVariable_spec hr hi a1 a2
    obtain ⟨as, s2, k1, k2, k3, k4⟩ := run_set hr vs s1 _ g2 (by rw [g3, hl]) (g4 hn) (fun y hy => h y (by simp [hy]))
    refine ⟨.nothing :: as, s2, ?_, k2, k3, k4⟩
    rw [List.map_cons, run]
    simp only [call]
    rw [g1]
    simp only
    rw [k1]

/-- C92: on a new object, after any calls of setVariable, the first call of getFactorVariable gives the solution for the weights that were set last. Missing for the
full claim: later calls. -/
theorem C92_first_solution_partial (e : Env R S) (hlive : e.lives = true) {gm : GM R} {p : Problem R} (hb : BuiltModel gm p) (ho : OneUnary p)
    (vs : List (Nat × List R)) (hc : ∀ x ∈ vs, Allowed p (.setVariable x.1 x.2)) {j : Nat} {t : Term R} {v w : Nat} (ht : p.terms[j]? = some t) (hv : t.vars = [v, w]) :
    ∃ s as s1 s2, construct e gm = .ok s () ∧ run e gm s (vs.map (fun x => .setVariable x.1 x.2)) = .ok as s1 ∧
      getFactorVariable e gm s1 j = some ((e.solve j
        ((vs.foldl (fun us x => after p us (.setVariable x.1 x.2)) (p.numLabels.map (fun n => List.replicate n 0))).getD v [])
        ((vs.foldl (fun us x => after p us (.setVariable x.1 x.2)) (p.numLabels.map (fun n => List.replicate n 0))).getD w [])).2, s2) := by
  obtain ⟨s, hs, hi, hl, hn⟩ := (construct_spec e hb.represents).1 ho
  obtain ⟨as, s1, h1, h2, h3, h4⟩ := run_set hb.represents vs s _ hi hl hn hc
  obtain ⟨s2, g1, g2, _, g4, g5⟩ := getFactorValue_spec hlive hb.represents h2 ht (by rw [hv]; rfl)
  have hj : j < s1.buffered.length := by rw [h2.len]; exact (List.getElem?_eq_some_iff.mp ht).1
  obtain ⟨v', w', k1, k2⟩ := g5 (by rw [List.getElem?_eq_getElem hj, h4 _ (List.getElem_mem hj)])
  rw [hv] at k1
  cases k1
  refine ⟨s, as, s1, s2, hs, h1, ?_⟩
  unfold getFactorVariable
  rw [if_pos (by rw [h3]; simp), g1]
  simp only [Option.map_some]
  rw [k2]
  rfl

/-! ### concrete cases -/

/-- Two factors of one variable, two factors of two variables. -/
def ops : List (BuildOp Int) :=
  [.addVariable 2, .addVariable 2, .addVariable 2, .addFunction 0 ⟨[2], fun c => 5 + (c.headD 0 : Int)⟩, .addFunction 0 ⟨[2, 2], fun c => c.foldl (fun a l => 2 * a + (l : Int)) 1⟩,
   .addFactor 0 [1], .addFactor 1 [0, 1], .addFactor 0 [0], .addFactor 1 [1, 2]]

theorem ops_built : BuiltModel (ExplicitModel.modelAfter 1 ops) (builtAfter ops).problem := by
  refine ⟨1, fun _ _ => false, ops, _, by intro f g h; simp at h, ?_, rfl, rfl, rfl⟩
  simp [ops, ValidHistory, BuildOp.Valid, BuildOp.apply, Built.empty, restrict]

/-- A stand-in for the transportation solver: the solution is the factor with the two sequences of weights. -/
def env (lives : Bool) : Env Int (Nat × List Int × List Int) := ⟨1000, fun j a b => (a.sum + 10 * b.sum, (j, a, b)), lives⟩

theorem ops_oneUnary : OneUnary (builtAfter ops).problem := by
  intro i j s t hi hj hl hst
  have hp : (builtAfter ops).problem.terms.map (fun t => t.vars) = [[1], [0, 1], [0], [1, 2]] := by decide
  have a := congrArg (fun l => l[i]?) hp
  have b := congrArg (fun l => l[j]?) hp
  simp only [List.getElem?_map, hi, hj, Option.map_some] at a b
  rw [← hst] at b
  match i, j, a, b with
  | 0, 0, _, _ => rfl
  | 0, 1, a, b => simp at a b; rw [a] at b; simp at b
  | 0, 2, a, b => simp at a b; rw [a] at b; simp at b
  | 0, 3, a, b => simp at a b; rw [a] at b; simp at b
  | 1, _, a, _ => simp at a; rw [a] at hl; simp at hl
  | 2, 0, a, b => simp at a b; rw [a] at b; simp at b
  | 2, 1, a, b => simp at a b; rw [a] at b; simp at b
  | 2, 2, _, _ => rfl
  | 2, 3, a, b => simp at a b; rw [a] at b; simp at b
  | 3, _, a, _ => simp at a; rw [a] at hl; simp at hl
  | i + 4, _, a, _ => simp at a
  | 0, j + 4, _, b => simp at b
  | 2, j + 4, _, b => simp at b

example : (env true).lives = true ∧ BuiltModel (ExplicitModel.modelAfter 1 ops) (builtAfter ops).problem ∧ OneUnary (builtAfter ops).problem ∧
    ∀ c ∈ [Call.setVariable 1 [3, 4], .getTotalValue, .setVariable 0 [1, 2], .getTotalValue, .getVariable 1], Allowed (builtAfter ops).problem c := by
  refine ⟨rfl, ops_built, ops_oneUnary, ?_⟩
  have hp : ∀ t ∈ (builtAfter ops).problem.terms, t.vars.length = 1 ∨ t.vars.length = 2 := by decide
  intro c hc
  simp only [List.mem_cons, List.not_mem_nil, or_false] at hc
  rcases hc with rfl | rfl | rfl | rfl | rfl
  · exact ⟨2, by decide, by decide⟩
  · exact hp
  · exact ⟨2, by decide, by decide⟩
  · exact hp
  · show 1 < (builtAfter ops).problem.numLabels.length
    decide

/-- The values of an answer. -/
def valueOf : Answer Int (Nat × List Int × List Int) → Option Int
  | .value r => some r
  | _ => none

/-- The solution of an answer. -/
def solutionOf : Answer Int (Nat × List Int × List Int) → Option (Nat × List Int × List Int)
  | .solution x => some x
  | _ => none

/-- The answers of a history on a new object. -/
def answers (lives : Bool) (gm : GM Int) (cs : List (Call Int)) : Option (List (Answer Int (Nat × List Int × List Int))) :=
  match construct (env lives) gm with
  | .ok s _ =>
    match run (env lives) gm s cs with
    | .ok as _ => some as
    | _ => none
  | _ => none

example : (answers true (ExplicitModel.modelAfter 1 ops) [.setVariable 1 [3, 4], .getTotalValue, .setVariable 0 [1, 2], .getTotalValue]).map (fun as => as.map valueOf) =
    some [none, some 116, none, some 136] := by decide +kernel

example : ((builtAfter ops).problem.terms[1]?.map (fun t => t.vars)) = some [0, 1] ∧ Allowed (builtAfter ops).problem (.setVariable 1 [3, 4]) :=
  ⟨by decide, 2, by decide, by decide⟩

/-- C92 is violated: getFactorVariable asks whether the solver was used for this factor last, but setVariable does not reset this. After getFactorVariable(1),
setVariable(0, ...), a second getFactorVariable(1) returns the solution for the old weights of variable 0 (here [0, 0] instead of [1, 2]). -/
theorem C92_violated_stale : ∃ gm p, BuiltModel gm p ∧ OneUnary p ∧
    (answers true gm [.getFactorVariable 1, .setVariable 0 [1, 2], .getFactorVariable 1]).map (fun as => as.map solutionOf) =
      some [some (1, [0, 0], [0, 0]), none, some (1, [0, 0], [0, 0])] :=
  ⟨_, _, ops_built, ops_oneUnary, by decide +kernel⟩

/-- C92 is violated: if the value of a factor is buffered, getFactorVariable does not run the solver and returns the solution of the factor for which the solver was
used last. After getFactorValue(1) and getFactorValue(3), getFactorVariable(1) returns the solution of factor 3. -/
theorem C92_violated_other : ∃ gm p, BuiltModel gm p ∧ OneUnary p ∧
    (answers true gm [.getFactorValue 1, .getFactorValue 3, .getFactorVariable 1]).map (fun as => as.map solutionOf) =
      some [none, none, some (3, [0, 0], [0, 0])] :=
  ⟨_, _, ops_built, ops_oneUnary, by decide +kernel⟩

/-- C92 is violated: getFactorValue passes a temporary object to `Init` of the solver, which stores its address; `Solve` reads from this address after the object
was destroyed. So, by the rules of the language, the first getFactorValue for any factor of two variables is undefined, for every model. -/
theorem C92_violated_dangling (e : Env R S) (hdead : e.lives = false) {gm : GM R} {p : Problem R} (hb : BuiltModel gm p) (ho : OneUnary p) (j : Nat) (t : Term R)
    (ht : p.terms[j]? = some t) : ∃ s, construct e gm = .ok s () ∧ getFactorValue e gm s j = none := by
  obtain ⟨s, hs, hi, hl, hn⟩ := (construct_spec e hb.represents).1 ho
  refine ⟨s, hs, ?_⟩
  have hj : j < s.buffered.length := by rw [hi.len]; exact (List.getElem?_eq_some_iff.mp ht).1
  unfold getFactorValue
  rw [List.getElem?_eq_getElem hj]
  simp only
  rw [if_pos (hn _ (List.getElem_mem hj))]
  split
  · rfl
  · split
    · split
      · rw [if_neg (by rw [hdead]; simp)]
      · rfl
    · rfl

example : (env false).lives = false ∧ ∃ t, (builtAfter ops).problem.terms[1]? = some t := ⟨rfl, _, rfl⟩

/-- A factor of two variables with a value, then a factor of three variables. -/
def badOps : List (BuildOp Int) :=
  [.addVariable 2, .addVariable 2, .addVariable 2, .addFunction 0 ⟨[2, 2, 2], fun _ => 0⟩, .addFunction 0 ⟨[2], fun _ => 3⟩, .addFactor 1 [1], .addFactor 0 [0, 1, 2]]

theorem bad_built : BuiltModel (ExplicitModel.modelAfter 1 badOps) (builtAfter badOps).problem := by
  refine ⟨1, fun _ _ => false, badOps, _, by intro f g h; simp at h, ?_, rfl, rfl, rfl⟩
  simp [badOps, ValidHistory, BuildOp.Valid, BuildOp.apply, Built.empty, restrict]

/-- Did a call throw, and the value of the next call. -/
def throwThen (gm : GM Int) : Option (Bool × Int) :=
  match construct (env true) gm with
  | .ok s _ =>
    match run (env true) gm s [.setVariable 1 [1, 1]] with
    | .ok _ s1 =>
      match getTotalValue (env true) gm s1 with
      | .throw s2 =>
        match getTotalValue (env true) gm s2 with
        | .ok r _ => some (true, r)
        | _ => none
      | _ => none
    | _ => none
  | _ => none

/-- C92 is violated: for a model with a factor of three variables getTotalValue throws, but the sum of the factors before it is left as buffered value: the next
call of getTotalValue returns this sum (here 6) instead of throwing. -/
theorem C92_violated_throw : ∃ gm : GM Int, BuiltModel gm (builtAfter badOps).problem ∧ throwThen gm = some (true, 6) :=
  ⟨_, bad_built, by decide +kernel⟩

/-- C92 is violated: the check that a factor has two variables constructs an exception without throwing it; getFactorValue for a factor of one variable is undefined. -/
theorem C92_violated_check : ∃ gm p, BuiltModel gm p ∧ (∃ t, p.terms[0]? = some t ∧ t.vars.length = 1) ∧
    ∃ s, construct (env true) gm = .ok s () ∧ getFactorValue (env true) gm s 0 = none := by
  refine ⟨_, _, ops_built, ⟨_, rfl, rfl⟩, _, rfl, ?_⟩
  apply Option.isNone_iff_eq_none.mp
  decide +kernel

end PrimalBound
end OpenGM
