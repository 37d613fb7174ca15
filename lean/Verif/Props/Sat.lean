import Verif.Lemmas.Sat
/-
C88: the solver for conjunctions of Boolean functions of two binary variables.
-/
namespace OpenGM
namespace Sat
open Spec

/-- Calls of infer(), one for each visitor. -/
def inferAll (scc : Nat → Edges → List Nat) (gm : GM Bool) : List Visitor → Solver → Outcome Solver Unit
  | [], s => .ok () s
  | visitor :: visitors, s =>
    match s.infer scc gm visitor with
    | .ok _ s' => inferAll scc gm visitors s'
    | .throw s' => .throw s'
    | .ub => .ub

/-- The solver after an infer(). -/
def Solved (p : Problem Bool) (gm : GM Bool) (s : Solver) : Prop := ∃ b, s.value gm = some b ∧ (b = true ↔ p.Satisfiable)

theorem infer_spec {scc : Nat → Edges → List Nat} (hscc : ∀ n g, IsStrongComponents n g (scc n g)) {gm : GM Bool} {p : Problem Bool} (hr : Represents gm p)
    (h2 : ∀ k ∈ p.numLabels, k = 2) (ht : ∀ t ∈ p.terms, t.vars.length = 2) (visitor : Visitor) (s : Solver) (hv : visitor.readsAtBegin = true → Solved p gm s) :
    ∃ s', s.infer scc gm visitor = .ok () s' ∧ Solved p gm s' := by
  have hlab := hr.labels
  obtain ⟨g, g1, g2⟩ := buildGraph_spec (by rw [hlab]; exact h2) hr.factors [] ht
  simp only [List.not_mem_nil, false_or] at g2
  rw [hlab] at g2
  obtain ⟨c1, c2⟩ := hscc (gm.numberOfVariables * 2) g
  have hn : gm.numberOfVariables = p.numLabels.length := by unfold GM.numberOfVariables; rw [hlab]
  have hsolved : Solved p gm ⟨scc (gm.numberOfVariables * 2) g⟩ := by
    obtain ⟨b, b1, b2⟩ := valueLoop_spec (scc (gm.numberOfVariables * 2) g) gm.numberOfVariables (by rw [c1]; omega) (List.range gm.numberOfVariables) true (fun i hi => List.mem_range.mp hi)
    refine ⟨b, b1, b2.trans ?_⟩
    rw [satisfiable_iff hr h2 ht g2, ← hn]
    simp only [true_and, List.mem_range]
    refine forall_congr' fun i => forall_congr' fun hi => not_congr (c2 i _ (by omega) (by omega))
  refine ⟨_, ?_, hsolved⟩
  unfold Solver.infer
  rw [if_neg, g1]
  · simp only
    obtain ⟨b, hb, _⟩ := hsolved
    rw [if_neg (by rw [hb]; simp)]
  · intro h
    rw [Bool.and_eq_true] at h
    obtain ⟨b, hb, _⟩ := hv h.1
    rw [hb] at h
    simp at h

theorem inferAll_spec {scc : Nat → Edges → List Nat} (hscc : ∀ n g, IsStrongComponents n g (scc n g)) {gm : GM Bool} {p : Problem Bool} (hr : Represents gm p)
    (h2 : ∀ k ∈ p.numLabels, k = 2) (ht : ∀ t ∈ p.terms, t.vars.length = 2) : ∀ (visitors : List Visitor) (s : Solver), Solved p gm s →
    ∃ s', inferAll scc gm visitors s = .ok () s' ∧ Solved p gm s'
  | [], s, hs => ⟨s, rfl, hs⟩
  | visitor :: visitors, s, hs => by
    obtain ⟨s1, a1, a2⟩ := infer_spec hscc hr h2 ht visitor s (fun _ => hs)
    obtain ⟨s2, b1, b2⟩ := inferAll_spec hscc hr h2 ht visitors s1 a2
    exact ⟨s2, by rw [inferAll, a1]; exact b1, b2⟩

/-- C88: for every model of binary variables whose factors all have two variables, a fresh solver decides satisfiability: infer() with a visitor that does not read the
value at the beginning, followed by any number of further calls of infer() with any visitors, succeeds, and then value() is true if and only if some labeling makes all
factors true. (`scc` is any correct algorithm for strongly connected components.) -/
theorem C88_decides_partial {scc : Nat → Edges → List Nat} (hscc : ∀ n g, IsStrongComponents n g (scc n g)) {gm : GM Bool} {p : Problem Bool} (hb : BuiltModel gm p)
    (h2 : ∀ k ∈ p.numLabels, k = 2) (ht : ∀ t ∈ p.terms, t.vars.length = 2) (visitor : Visitor) (hv : visitor.readsAtBegin = false) (visitors : List Visitor) :
    ∃ s b, inferAll scc gm (visitor :: visitors) Solver.make = .ok () s ∧ s.value gm = some b ∧ (b = true ↔ p.Satisfiable) := by
  obtain ⟨s1, a1, a2⟩ := infer_spec hscc hb.represents h2 ht visitor Solver.make (by rw [hv]; simp)
  obtain ⟨s2, b1, b, b2, b3⟩ := inferAll_spec hscc hb.represents h2 ht visitors s1 a2
  exact ⟨s2, b, by rw [inferAll, a1]; exact b1, b2, b3⟩

/-- C88: if some factor has not exactly two variables, infer() throws and leaves the solver as it was. -/
theorem C88_rejects (scc : Nat → Edges → List Nat) {gm : GM Bool} {p : Problem Bool} (hb : BuiltModel gm p)
    (h2 : ∀ k ∈ p.numLabels, k = 2) (ht : ∃ t ∈ p.terms, t.vars.length ≠ 2) (visitor : Visitor) (hv : visitor.readsAtBegin = false) (s : Solver) :
    s.infer scc gm visitor = .throw s := by
  have hr := hb.represents
  unfold Solver.infer
  rw [if_neg (by rw [hv]; simp), buildGraph_throws (by rw [hr.labels]; exact h2) hr.factors [] ht]

/-- C88 is violated for a visitor that prints the value when inference begins, as the verbose and the timing visitors do: value() reads the component vector, which is
empty until the first infer() has ended, so for every model with a variable both value() before infer() and infer(visitor) read outside that vector. -/
theorem C88_violated_visitor (scc : Nat → Edges → List Nat) {gm : GM Bool} {p : Problem Bool} (hb : BuiltModel gm p) (hn : 0 < p.numLabels.length) :
    Solver.make.value gm = none ∧ Solver.make.infer scc gm Visitor.verbose = .ub := by
  have hv : Solver.make.value gm = none := by
    unfold Solver.value GM.numberOfVariables
    rw [hb.represents.labels]
    obtain ⟨k, hk⟩ : ∃ k, p.numLabels.length = k + 1 := ⟨_, (Nat.succ_pred_eq_of_pos hn).symm⟩
    rw [hk, List.range_succ_eq_map]
    rfl
  refine ⟨hv, ?_⟩
  unfold Solver.infer
  rw [hv]
  rfl

/-! ### examples -/

/-- Strongly connected components exist for every graph: number a vertex by the least vertex of its component. -/
theorem exists_scc : ∃ scc : Nat → Edges → List Nat, ∀ n g, IsStrongComponents n g (scc n g) := by
  classical
  refine ⟨fun n g => (List.range n).map (fun v => Nat.find (p := fun u => Reaches g u v ∧ Reaches g v u) ⟨v, Relation.ReflTransGen.refl, Relation.ReflTransGen.refl⟩), fun n g => ⟨by simp, fun u v hu hv => ?_⟩⟩
  rw [List.getElem?_map, List.getElem?_map, List.getElem?_range hu, List.getElem?_range hv, Option.map_some, Option.map_some, Option.some.injEq]
  constructor
  · intro h
    have h1 := Nat.find_spec (p := fun w => Reaches g w u ∧ Reaches g u w) ⟨u, Relation.ReflTransGen.refl, Relation.ReflTransGen.refl⟩
    have h2 := Nat.find_spec (p := fun w => Reaches g w v ∧ Reaches g v w) ⟨v, Relation.ReflTransGen.refl, Relation.ReflTransGen.refl⟩
    rw [h] at h1
    exact ⟨Relation.ReflTransGen.trans h1.2 h2.1, Relation.ReflTransGen.trans h2.2 h1.1⟩
  · rintro ⟨h1, h2⟩
    congr 1
    funext w
    exact propext ⟨fun h => ⟨Relation.ReflTransGen.trans h.1 h1, Relation.ReflTransGen.trans h2 h.2⟩, fun h => ⟨Relation.ReflTransGen.trans h.1 h2, Relation.ReflTransGen.trans h1 h.2⟩⟩

/-- Two variables, "at least one is true" and "they are different". -/
def orXorOps : List (BuildOp Bool) :=
  [.addVariable 2, .addVariable 2, .addFunction 0 ⟨[2, 2], fun c => decide (c ≠ [0, 0])⟩, .addFunction 0 ⟨[2, 2], fun c => decide (c = [0, 1] ∨ c = [1, 0])⟩,
   .addFactor 0 [0, 1], .addFactor 1 [0, 1]]

/-- The same, and "they are equal". -/
def contradictionOps : List (BuildOp Bool) :=
  orXorOps ++ [.addFunction 0 ⟨[2, 2], fun c => decide (c = [0, 0] ∨ c = [1, 1])⟩, .addFactor 2 [0, 1]]

/-- A single clause of one variable. -/
def unitOps : List (BuildOp Bool) := [.addVariable 2, .addFunction 0 ⟨[2], fun c => decide (c = [1])⟩, .addFactor 0 [0]]

example : (∃ gm, BuiltModel gm (builtAfter orXorOps).problem) ∧ (∀ k ∈ (builtAfter orXorOps).problem.numLabels, k = 2) ∧
    (∀ t ∈ (builtAfter orXorOps).problem.terms, t.vars.length = 2) ∧ (builtAfter orXorOps).problem.Satisfiable := by
  refine ⟨builtModel_exists (nTypes := 1) ?_, by decide, ?_, [0, 1], ?_, by decide⟩
  · simp [orXorOps, ValidHistory, BuildOp.Valid, BuildOp.apply, Built.empty, restrict]
  · simp [orXorOps, builtAfter, BuildOp.apply, Built.empty, Built.problem]
  · refine ⟨rfl, fun v l k hl hk => ?_⟩
    match v, hl, hk with
    | 0, hl, hk => cases hl; cases hk; omega
    | 1, hl, hk => cases hl; cases hk; omega

example : (∃ gm, BuiltModel gm (builtAfter contradictionOps).problem) ∧ (∀ k ∈ (builtAfter contradictionOps).problem.numLabels, k = 2) ∧
    (∀ t ∈ (builtAfter contradictionOps).problem.terms, t.vars.length = 2) := by
  refine ⟨builtModel_exists (nTypes := 1) ?_, by decide, ?_⟩
  · simp [contradictionOps, orXorOps, ValidHistory, BuildOp.Valid, BuildOp.apply, Built.empty, restrict]
  · simp [contradictionOps, orXorOps, builtAfter, BuildOp.apply, Built.empty, Built.problem]

example : (∃ gm, BuiltModel gm (builtAfter unitOps).problem) ∧ (∀ k ∈ (builtAfter unitOps).problem.numLabels, k = 2) ∧
    (∃ t ∈ (builtAfter unitOps).problem.terms, t.vars.length ≠ 2) ∧ 0 < (builtAfter unitOps).problem.numLabels.length := by
  refine ⟨builtModel_exists (nTypes := 1) ?_, by decide, ?_, by decide⟩
  · simp [unitOps, ValidHistory, BuildOp.Valid, BuildOp.apply, Built.empty, restrict]
  · simp [unitOps, builtAfter, BuildOp.apply, Built.empty, Built.problem]

end Sat
end OpenGM
