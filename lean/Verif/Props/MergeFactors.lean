import Verif.Lemmas.MergeFactors
import Verif.Lemmas.Built
import Verif.Spec.Ranking
import Mathlib.Data.Rat.Defs
import Mathlib.Tactic.NormNum
import Mathlib.Algebra.Order.Ring.Rat
/-
C95: merging the factors that have the same variables.
-/
namespace OpenGM
namespace MergeFactors
open Spec
variable {V : Type} [AddCommMonoid V] {gm : GM V} {p : Problem V} {M : Nat}

theorem inv_init (p : Problem V) : Inv p [] ⟨GM.ofSpace 1 p.numLabels, [], []⟩ [] := by
  refine ⟨Manipulator.represents_ofSpace 1 p.numLabels, ⟨[], rfl, rfl⟩, by intro j f h; simp [GM.ofSpace] at h, ?_, by simp, by intro x _; rfl, by intro vs; simp⟩
  intro vs _
  simp [mapOf]

theorem energy_sum (p : Problem V) (y : List Nat) : p.energy (sumOp V) y = (p.terms.map (fun t => t.value y)).sum := by
  have key : ∀ (l : List V) (a : V), l.foldl (sumOp V).op a = a + l.sum := by
    intro l
    induction l with
    | nil => intro a; simp
    | cons b l ih => intro a; rw [List.foldl_cons, ih, List.sum_cons, ← add_assoc]; rfl
  unfold Problem.energy
  rw [key]
  exact zero_add _

omit [AddCommMonoid V] in
theorem scopes_eq {g : GM V} {ms : List (Term V)} : ∀ (fs : List FactorRec), List.Forall₂ (FactorMatches g) fs ms → fs.map g.scope = ms.map Term.vars := by
  intro fs h
  induction h with
  | nil => rfl
  | cons hm _ ih => rw [List.map_cons, List.map_cons, ih, hm.scope]

/-- C95: for a model whose factors have at most two variables, the merged model (built into an empty model with the same variables) has, for every labeling, the sum of the
values of all factors that depend on variables; each set of variables has one factor, and they are those of the given model; each variable knows its factors. The square
of the number of variables must fit into the index type and into 64 bits. -/
theorem C95_merge_partial (hb : BuiltModel gm p) (h2 : ∀ t ∈ p.terms, t.vars.length ≤ 2) (hM : p.numLabels.length * p.numLabels.length ≤ M)
    (h64 : p.numLabels.length * p.numLabels.length ≤ 2 ^ 64) :
    ∃ out, mergeFactors M gm (GM.ofSpace 1 gm.numLabels) = .ok out () ∧ out.numLabels = p.numLabels ∧
      (∀ x, p.Labeling x → out.evaluate (sumOp V) x = some (p.withoutConstants.energy (sumOp V) x)) ∧
      (out.factors.map out.scope).Nodup ∧ (∀ vs, vs ∈ out.factors.map out.scope ↔ vs ≠ [] ∧ ∃ t ∈ p.terms, t.vars = vs) ∧
      ∀ v, v < p.numLabels.length → out.factorsOfVariable v = some ((List.range out.factors.length).filter (fun j => decide (v ∈ (out.factors.map out.scope).getD j []))) := by
  have hr := hb.represents
  have hi := inv_init p
  rw [← hr.labels] at hi
  obtain ⟨s, ms, e1, e2⟩ := (loop_spec hr.labels hM h64 gm.factors p.terms [] _ _ hr.factors hi).1 h2
  rw [List.nil_append] at e2
  have hsc : s.out.factors.map s.out.scope = ms.map Term.vars := scopes_eq _ e2.rep.factors
  refine ⟨s.out, ?_, e2.rep.labels, ?_, ?_, ?_, ?_⟩
  · simp only [mergeFactors, e1]
  · intro x hx
    rw [evaluate_spec (sumOp V) e2.rep.toStores x hx, energy_sum, energy_sum, e2.value x hx]
    rfl
  · rw [hsc]; exact e2.nodup
  · intro vs; rw [hsc]; exact e2.scopes vs
  · intro v hv
    have hl : s.out.numLabels = p.numLabels := e2.rep.labels
    have := e2.rep.adj v (by rw [hl]; exact hv)
    unfold GM.factorsOfVariable
    rw [this, hsc, e2.rep.factors.length_eq]
    congr 2
    funext j
    simp only [mentions, List.getD_eq_getElem?_getD, List.getElem?_map]
    cases ms[j]? <;> simp

/-- C95: a model with a factor of more than two variables is rejected. -/
theorem C95_rejects (hb : BuiltModel gm p) (h2 : ∃ t ∈ p.terms, 2 < t.vars.length) (hM : p.numLabels.length * p.numLabels.length ≤ M)
    (h64 : p.numLabels.length * p.numLabels.length ≤ 2 ^ 64) : mergeFactors M gm (GM.ofSpace 1 gm.numLabels) = .throw () := by
  have hr := hb.represents
  have hi := inv_init p
  rw [← hr.labels] at hi
  have := (loop_spec hr.labels hM h64 gm.factors p.terms [] _ _ hr.factors hi).2 h2
  simp only [mergeFactors, this]

/-- The model that has been built by a history with one function type. -/
def gmAfter (ops : List (BuildOp ℚ)) : GM ℚ :=
  match (Client.init 1).run (fun _ _ => false) ops with
  | .ok _ c => c.gm
  | _ => GM.empty 0

/-- Two variables; the first one has two factors with the values 2 and 3 for all labels, both have two factors together. -/
def demoOps : List (BuildOp ℚ) :=
  [.addVariable 2, .addVariable 2, .addFunction 0 ⟨[2], fun _ => 2⟩, .addFunction 0 ⟨[2], fun _ => 3⟩, .addFunction 0 ⟨[2, 2], fun c => if c = [1, 1] then 4 else 1⟩,
    .addFactor 0 [0], .addFactor 2 [0, 1], .addFactor 1 [0], .addFactor 2 [0, 1]]

/-- A variable with a factor of value 2 twice and 3, the latter a constant. -/
def constantOps : List (BuildOp ℚ) := [.addVariable 2, .addFunction 0 ⟨[2], fun _ => 2⟩, .addFunction 0 ⟨[], fun _ => 3⟩, .addFactor 0 [0], .addFactor 1 []]

/-- A factor of three variables. -/
def tripleOps : List (BuildOp ℚ) := [.addVariable 2, .addVariable 2, .addVariable 2, .addFunction 0 ⟨[2, 2, 2], fun _ => 2⟩, .addFactor 0 [0, 1, 2]]

/-- A variable with two factors of the values 2 and 3. -/
def multOps : List (BuildOp ℚ) := [.addVariable 2, .addFunction 0 ⟨[2], fun _ => 2⟩, .addFunction 0 ⟨[2], fun _ => 3⟩, .addFactor 0 [0], .addFactor 1 [0]]

/-- The merged model. -/
def mergedOf (gm : GM ℚ) : GM ℚ :=
  match mergeFactors (2 ^ 64) gm (GM.ofSpace 1 gm.numLabels) with
  | .ok out _ => out
  | _ => GM.empty 0

theorem demo_built : BuiltModel (gmAfter demoOps) (builtAfter demoOps).problem := by
  refine ⟨1, fun _ _ => false, demoOps, _, by intro f g h; simp at h, ?_, rfl, rfl, rfl⟩
  simp [demoOps, ValidHistory, BuildOp.Valid, BuildOp.apply, Built.empty, restrict]

/-- The hypotheses of `C95_merge_partial` are met by a model with factors to merge. -/
example : BuiltModel (gmAfter demoOps) (builtAfter demoOps).problem ∧ (∀ t ∈ (builtAfter demoOps).problem.terms, t.vars.length ≤ 2) ∧
    (builtAfter demoOps).problem.numLabels.length * (builtAfter demoOps).problem.numLabels.length ≤ 2 ^ 32 ∧ (builtAfter demoOps).problem.Labeling [0, 1] := by
  refine ⟨demo_built, ?_, by decide, rfl, ?_⟩
  · intro t ht
    have h : t.vars ∈ (builtAfter demoOps).problem.terms.map Term.vars := List.mem_map.mpr ⟨t, ht, rfl⟩
    have h' : (builtAfter demoOps).problem.terms.map Term.vars = [[0], [0, 1], [0], [0, 1]] := rfl
    rw [h'] at h
    simp at h
    rcases h with h | h | h | h <;> simp [h]
  · intro v l n h1 h2
    have h3 : (builtAfter demoOps).problem.numLabels = [2, 2] := rfl
    rw [h3] at h2
    have := List.mem_of_getElem? h1
    have := List.mem_of_getElem? h2
    simp at *
    omega

/-- The hypotheses of `C95_rejects` are met by a model with a factor of three variables. -/
example : BuiltModel (gmAfter tripleOps) (builtAfter tripleOps).problem ∧ (∃ t ∈ (builtAfter tripleOps).problem.terms, 2 < t.vars.length) := by
  refine ⟨⟨1, fun _ _ => false, tripleOps, _, by intro f g h; simp at h, ?_, rfl, rfl, rfl⟩, ⟨[0, 1, 2], fun _ => 2⟩, by exact List.mem_singleton.mpr rfl, by decide⟩
  simp [tripleOps, ValidHistory, BuildOp.Valid, BuildOp.apply, Built.empty, restrict]

/-- C95 is violated for constant factors: they are dropped, and the merged model has another value for every labeling. -/
theorem C95_violated_constant : ∃ (gm : GM ℚ) (p : Problem ℚ) (out : GM ℚ), BuiltModel gm p ∧ (∀ t ∈ p.terms, t.vars.length ≤ 2) ∧
    mergeFactors (2 ^ 64) gm (GM.ofSpace 1 gm.numLabels) = .ok out () ∧ p.Labeling [0] ∧ p.energy (sumOp ℚ) [0] = 5 ∧ out.evaluate (sumOp ℚ) [0] = some 2 := by
  have hb : BuiltModel (gmAfter constantOps) (builtAfter constantOps).problem := by
    refine ⟨1, fun _ _ => false, constantOps, _, by intro f g h; simp at h, ?_, rfl, rfl, rfl⟩
    simp [constantOps, ValidHistory, BuildOp.Valid, BuildOp.apply, Built.empty, restrict]
  have h2 : ∀ t ∈ (builtAfter constantOps).problem.terms, t.vars.length ≤ 2 := by
    intro t ht
    have h : t.vars ∈ (builtAfter constantOps).problem.terms.map Term.vars := List.mem_map.mpr ⟨t, ht, rfl⟩
    have h' : (builtAfter constantOps).problem.terms.map Term.vars = [[0], []] := rfl
    rw [h'] at h
    simp at h
    rcases h with h | h <;> simp [h]
  have hx : (builtAfter constantOps).problem.Labeling [0] := by
    refine ⟨rfl, ?_⟩
    intro v l n h1 h2
    have h3 : (builtAfter constantOps).problem.numLabels = [2] := rfl
    rw [h3] at h2
    have := List.mem_of_getElem? h1
    have := List.mem_of_getElem? h2
    simp at *
    omega
  obtain ⟨out, e1, -, e3, -⟩ := C95_merge_partial (M := 2 ^ 64) hb h2 (by decide) (by decide)
  refine ⟨_, _, out, hb, h2, e1, hx, by with_unfolding_all rfl, ?_⟩
  rw [e3 _ hx]
  with_unfolding_all rfl

/-- C95 is violated for models whose operation is not addition: the values of merged factors are added nevertheless. For a variable with two factors of the values 2 and 3
and the multiplication as operation, the merged model has the value 5 instead of 6. -/
theorem C95_violated_multiplier : ∃ (gm : GM ℚ) (p : Problem ℚ) (out : GM ℚ), BuiltModel gm p ∧ (∀ t ∈ p.terms, t.vars.length = 1) ∧
    mergeFactors (2 ^ 64) gm (GM.ofSpace 1 gm.numLabels) = .ok out () ∧ p.Labeling [0] ∧ p.energy ⟨1, (· * ·)⟩ [0] = 6 ∧ out.evaluate ⟨1, (· * ·)⟩ [0] = some 5 := by
  refine ⟨gmAfter multOps, (builtAfter multOps).problem, mergedOf (gmAfter multOps), ?_, ?_, rfl, ⟨rfl, ?_⟩, by with_unfolding_all rfl, ?_⟩
  · refine ⟨1, fun _ _ => false, multOps, _, by intro f g h; simp at h, ?_, rfl, rfl, rfl⟩
    simp [multOps, ValidHistory, BuildOp.Valid, BuildOp.apply, Built.empty, restrict]
  · intro t ht
    have h : t.vars ∈ (builtAfter multOps).problem.terms.map Term.vars := List.mem_map.mpr ⟨t, ht, rfl⟩
    have h' : (builtAfter multOps).problem.terms.map Term.vars = [[0], [0]] := rfl
    rw [h'] at h
    simp at h
    simp [h]
  · intro v l n h1 h2
    have h3 : (builtAfter multOps).problem.numLabels = [2] := rfl
    rw [h3] at h2
    have := List.mem_of_getElem? h1
    have := List.mem_of_getElem? h2
    simp at *
    omega
  · have h : (mergedOf (gmAfter multOps)).evaluate ⟨1, (· * ·)⟩ [0] = some (1 * (2 + 3)) := rfl
    rw [h]
    norm_num

/-- C95 is violated for large models with an index type of 32 bits: different pairs of variables get the same key, so that their factors become one. -/
theorem C95_violated_key : key (2 ^ 32) 65537 [0, 1] = key (2 ^ 32) 65537 [1, 65536] ∧ key (2 ^ 32) 65537 [0, 1] = some 65537 := by decide

end MergeFactors
end OpenGM
