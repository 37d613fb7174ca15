import Verif.Lemmas.FactorGraph
import Verif.Props.GraphicalModel
/-
C08-C10, C13 (second half): structural queries of the factor graph.

The theorems are stated for every consistent factor graph (`FG.Exact`); `factorGraph_of_history` shows that the graph of
every model built by a valid history is one, with the variables passed to addFactor.
-/
namespace OpenGM
open Spec

/-- After any valid history the factor graph of the model is consistent and has the factors that were added. -/
theorem factorGraph_of_history {V : Type} (eqv : Fn V → Fn V → Bool) (he : EqvSound eqv) (nTypes : Nat)
    (ops : List (BuildOp V)) (hv : ValidHistory nTypes Built.empty ops) :
    ∃ c, (Client.init nTypes).run eqv ops = .ok () c ∧ c.gm.factorGraph.Exact ∧
      c.gm.factorGraph.scopes = (builtAfter ops).terms.map Term.vars ∧
      c.gm.factorGraph.numVars = (builtAfter ops).numLabels.length := by
  obtain ⟨c, h1, h2⟩ := client_run he ops (client_init nTypes) hv
  exact ⟨c, h1, factorGraph_exact h2.rep⟩

/-- The graph with variables 0..3 and factors {0,1}, {1,2}, {3}, {}, {0,1,2}. -/
def demoGraph : FG := ⟨4, [[0, 1], [1, 2], [3], [], [0, 1, 2]], [[0, 4], [0, 1, 4], [1, 4], [2]]⟩

theorem demoGraph_exact : demoGraph.Exact where
  adjLen := by decide
  sorted := by decide
  range := by decide
  adj := by
    intro v hv
    match v, hv with
    | 0, _ => refine ⟨_, rfl, by decide, ?_⟩; intro f; match f with | 0 | 1 | 2 | 3 | 4 | _ + 5 => simp [demoGraph]
    | 1, _ => refine ⟨_, rfl, by decide, ?_⟩; intro f; match f with | 0 | 1 | 2 | 3 | 4 | _ + 5 => simp [demoGraph]
    | 2, _ => refine ⟨_, rfl, by decide, ?_⟩; intro f; match f with | 0 | 1 | 2 | 3 | 4 | _ + 5 => simp [demoGraph]
    | 3, _ => refine ⟨_, rfl, by decide, ?_⟩; intro f; match f with | 0 | 1 | 2 | 3 | 4 | _ + 5 => simp [demoGraph]

namespace FG

/-- C08: `variableFactorConnection(v,f)` is true iff `v` is one of the variables of `f`. -/
theorem C08_variableFactor (g : FG) (h : g.Exact) (v f : Nat) (s : List Nat) (hf : g.scopes[f]? = some s) :
    g.variableFactorConnection v f = some (decide (v ∈ s)) ∧ g.factorVariableConnection f v = some (decide (v ∈ s)) := by
  have : binarySearch s v = decide (v ∈ s) := by
    rw [Bool.eq_iff_iff, binarySearch_spec s v (h.sorted s (List.mem_of_getElem? hf))]; simp
  simp [factorVariableConnection, variableFactorConnection, hf, this]

/-- C08: `variableVariableConnection(v,w)` is true iff `v ≠ w` and some factor contains both. -/
theorem C08_variableVariable (g : FG) (h : g.Exact) (v w : Nat) (hv : v < g.numVars) (hw : w < g.numVars) :
    ∃ b, g.variableVariableConnection v w = some b ∧ (b = true ↔ v ≠ w ∧ ∃ s ∈ g.scopes, v ∈ s ∧ w ∈ s) := by
  unfold variableVariableConnection
  by_cases e : v = w
  · exact ⟨false, by simp [e], by simp [e]⟩
  · obtain ⟨a, a1, a2, a3⟩ := h.adj v hv
    obtain ⟨b, b1, b2, b3⟩ := h.adj w hw
    refine ⟨mergeWalk a b, by simp [e, a1, b1], ?_⟩
    rw [mergeWalk_spec a b a2 b2]
    constructor
    · rintro ⟨f, hfa, hfb⟩
      obtain ⟨s, s1, s2⟩ := (a3 f).mp hfa
      obtain ⟨s', s3, s4⟩ := (b3 f).mp hfb
      rw [s1] at s3
      obtain rfl := Option.some.inj s3
      exact ⟨e, s, List.mem_of_getElem? s1, s2, s4⟩
    · rintro ⟨_, s, hs, h1, h2⟩
      obtain ⟨f, hf, rfl⟩ := List.getElem_of_mem hs
      exact ⟨f, (a3 f).mpr ⟨_, List.getElem?_eq_getElem hf, h1⟩, (b3 f).mpr ⟨_, List.getElem?_eq_getElem hf, h2⟩⟩

/-- C08: `factorFactorConnection(f1,f2)` is true iff `f1 ≠ f2` and they share a variable. -/
theorem C08_factorFactor (g : FG) (h : g.Exact) (f1 f2 : Nat) (s1 s2 : List Nat) (h1 : g.scopes[f1]? = some s1)
    (h2 : g.scopes[f2]? = some s2) :
    ∃ b, g.factorFactorConnection f1 f2 = some b ∧ (b = true ↔ f1 ≠ f2 ∧ ∃ v, v ∈ s1 ∧ v ∈ s2) := by
  unfold factorFactorConnection
  by_cases e : f1 = f2
  · exact ⟨false, by simp [e], by simp [e]⟩
  · refine ⟨mergeWalk s1 s2, by simp [e, h1, h2], ?_⟩
    rw [mergeWalk_spec s1 s2 (h.sorted _ (List.mem_of_getElem? h1)) (h.sorted _ (List.mem_of_getElem? h2))]
    simp [e]

example : demoGraph.variableVariableConnection 0 2 = some true ∧ demoGraph.factorFactorConnection 0 2 = some false ∧
    demoGraph.variableFactorConnection 2 4 = some true := by
  refine ⟨?_, ?_, by decide⟩
  · simp [demoGraph, variableVariableConnection, mergeWalk]
  · simp [demoGraph, factorFactorConnection, mergeWalk]

/-- C09 (list): for every variable, the strictly increasing list of exactly the variables sharing a factor with it. -/
theorem C09_adjacencyList (g : FG) (h : g.Exact) :
    ∃ out, g.variableAdjacencyList = some out ∧ out.length = g.numVars ∧
      ∀ v, v < g.numVars → ∃ l, out[v]? = some l ∧ l.Pairwise (· < ·) ∧
        ∀ w, w ∈ l ↔ v ≠ w ∧ ∃ s ∈ g.scopes, v ∈ s ∧ w ∈ s := by
  obtain ⟨out, h1, h2, h3⟩ := listInv_scopes (n := g.numVars) g.scopes h.sorted h.range (List.replicate g.numVars []) []
    ⟨by simp, fun v hv => ⟨[], by simp [hv], by simp, by simp⟩⟩
  refine ⟨out, h1, h2, ?_⟩
  intro v hv
  obtain ⟨l, a1, a2, a3⟩ := h3 v hv
  refine ⟨l, a1, a2, ?_⟩
  intro w
  rw [a3, List.nil_append, mem_flatMap_pairs g h]

/-- C09 (matrix): entry `(v,w)` is true iff `v ≠ w` and they share a factor. -/
theorem C09_adjacencyMatrix (g : FG) (h : g.Exact) :
    ∃ m, g.variableAdjacencyMatrix = some m ∧ m.length = g.numVars ∧
      ∀ v, v < g.numVars → ∃ row, m[v]? = some row ∧ row.length = g.numVars ∧
        ∀ w, w < g.numVars → ∃ b, row[w]? = some b ∧ (b = true ↔ v ≠ w ∧ ∃ s ∈ g.scopes, v ∈ s ∧ w ∈ s) := by
  obtain ⟨m, h1, h2, h3⟩ := matInv_scopes (n := g.numVars) g.scopes h.sorted h.range
    (List.replicate g.numVars (List.replicate g.numVars false)) []
    ⟨by simp, fun v hv => ⟨List.replicate g.numVars false, by simp [hv], by simp, fun w hw => by simp [hw]⟩⟩
  refine ⟨m, h1, h2, ?_⟩
  intro v hv
  obtain ⟨row, a1, a2, a3⟩ := h3 v hv
  refine ⟨row, a1, a2, ?_⟩
  intro w hw
  refine ⟨_, a3 w hw, ?_⟩
  rw [decide_eq_true_eq, List.nil_append, mem_flatMap_pairs g h]

example : demoGraph.variableAdjacencyList = some [[1, 2], [0, 2], [0, 1], []] := by decide

/-- C10, what holds: the list of factor `f` is strictly increasing and consists of the other factors containing one of the
variables `0, ..., order(f)-1`. Missing for the full claim: these are not the variables of `f` (`C10_violated`). -/
theorem C10_factorAdjacency_partial (g : FG) (h : g.Exact) :
    ∃ out, g.factorAdjacencyList = some out ∧ out.length = g.scopes.length ∧
      ∀ (f : Nat) (sf : List Nat), g.scopes[f]? = some sf → ∃ l, out[f]? = some l ∧ l.Pairwise (· < ·) ∧
        ∀ x : Nat, x ∈ l ↔ x ≠ f ∧ ∃ s : List Nat, g.scopes[x]? = some s ∧ ∃ v, v < sf.length ∧ v ∈ s := by
  obtain ⟨out, h1, h2, h3⟩ := loopF_spec g h g.scopes [] (List.replicate g.scopes.length []) rfl (by simp) (by
    intro f hf
    exact ⟨[], by simp [hf], by simp, by simp⟩)
  refine ⟨out, h1, h2, ?_⟩
  intro f sf hf
  obtain ⟨l, a1, a2, a3⟩ := h3 f (List.getElem?_eq_some_iff.mp hf).1
  refine ⟨l, a1, a2, ?_⟩
  intro x
  rw [a3, hf]
  simp only [Option.some.injEq, exists_eq_left']
  constructor
  · rintro ⟨b1, v, b2, s, b3, b4⟩; exact ⟨b1, s, b3, v, b2, b4⟩
  · rintro ⟨b1, s, b3, v, b2, b4⟩; exact ⟨b1, v, b2, s, b3, b4⟩

/-- C10 for factors whose variables are `0, ..., k-1`: the list is right. -/
theorem C10_initial_partial (g : FG) (h : g.Exact) (f k : Nat) (hf : g.scopes[f]? = some (List.range k)) :
    ∃ out l, g.factorAdjacencyList = some out ∧ out[f]? = some l ∧
      ∀ x : Nat, x ∈ l ↔ x ≠ f ∧ ∃ s : List Nat, g.scopes[x]? = some s ∧ ∃ v, v ∈ List.range k ∧ v ∈ s := by
  obtain ⟨out, h1, _, h3⟩ := C10_factorAdjacency_partial g h
  obtain ⟨l, a1, _, a3⟩ := h3 f _ hf
  refine ⟨out, l, h1, a1, ?_⟩
  intro x; rw [a3]; simp

example : demoGraph.scopes[4]? = some (List.range 3) := by decide

/-- C10 is violated: in the graph with factors {0,1}, {1,2}, {3}, {}, {0,1,2}, the list of factor 2 = {3} contains the
factors of variable 0, which share no variable with it. -/
theorem C10_violated : demoGraph.Exact ∧ ∃ out, demoGraph.factorAdjacencyList = some out ∧
    out[2]? = some [0, 4] ∧ ∀ x ∈ [0, 4], demoGraph.factorFactorConnection 2 x = some false := by
  refine ⟨demoGraph_exact, _, rfl, by decide, ?_⟩
  intro x hx
  simp only [List.mem_cons, List.not_mem_nil, or_false] at hx
  rcases hx with rfl | rfl <;> simp [demoGraph, factorFactorConnection, mergeWalk]

/-- C13: `maxFactorOrder(k)` is true iff every factor has at most `k` variables. -/
theorem C13_maxFactorOrderLe (g : FG) (k : Nat) :
    g.maxFactorOrderLe k = true ↔ ∀ s ∈ g.scopes, s.length ≤ k := by
  unfold maxFactorOrderLe
  induction g.scopes with
  | nil => simp [maxFactorOrderLe.go]
  | cons s rest ih =>
    unfold maxFactorOrderLe.go
    split
    · simp; omega
    · rw [ih]; simp; omega

/-- C13: `maxFactorOrder()` is the largest number of variables of a factor, 0 if there are none. -/
theorem C13_maxFactorOrder (g : FG) :
    (∀ s ∈ g.scopes, s.length ≤ g.maxFactorOrder) ∧ (g.maxFactorOrder = 0 ∨ ∃ s ∈ g.scopes, s.length = g.maxFactorOrder) := by
  unfold maxFactorOrder
  have key : ∀ (l : List (List Nat)) (a : Nat),
      a ≤ l.foldl (fun m s => if s.length > m then s.length else m) a ∧
      (∀ s ∈ l, s.length ≤ l.foldl (fun m s => if s.length > m then s.length else m) a) ∧
      (l.foldl (fun m s => if s.length > m then s.length else m) a = a ∨
        ∃ s ∈ l, s.length = l.foldl (fun m s => if s.length > m then s.length else m) a) := by
    intro l
    induction l with
    | nil => simp
    | cons t l ih =>
      intro a
      simp only [List.foldl_cons]
      obtain ⟨h1, h2, h3⟩ := ih (if t.length > a then t.length else a)
      have ha : a ≤ (if t.length > a then t.length else a) := by split <;> omega
      have ht : t.length ≤ (if t.length > a then t.length else a) := by split <;> omega
      refine ⟨by omega, ?_, ?_⟩
      · intro s hs
        rcases List.mem_cons.mp hs with rfl | hs
        · omega
        · exact h2 s hs
      · rcases h3 with h3 | ⟨s, h4, h5⟩
        · rw [h3]
          split
          · right; exact ⟨t, by simp, rfl⟩
          · left; rfl
        · right; exact ⟨s, by simp [h4], h5⟩
  exact ⟨(key g.scopes 0).2.1, (key g.scopes 0).2.2⟩

example : demoGraph.maxFactorOrder = 3 ∧ demoGraph.maxFactorOrderLe 2 = false := by decide

/-- Factor `f` exists and has `n` variables. -/
def hasOrder (g : FG) (n f : Nat) : Bool :=
  match g.scopes[f]? with
  | some s => decide (s.length = n)
  | none => false

theorem hasOrder_iff (g : FG) (n f : Nat) : hasOrder g n f = true ↔ ∃ s : List Nat, g.scopes[f]? = some s ∧ s.length = n := by
  unfold hasOrder
  cases g.scopes[f]? <;> simp

theorem nthOrder_go_spec (g : FG) (n : Nat) (fs : List Nat) (hfs : ∀ f ∈ fs, f < g.scopes.length) : ∀ c,
    numberOfNthOrderFactorsOfVariable.go g n fs c =
      some (c + (fs.filter (hasOrder g n)).length) := by
  induction fs with
  | nil => intro c; simp [numberOfNthOrderFactorsOfVariable.go]
  | cons f fs ih =>
    intro c
    have hf := hfs f (by simp)
    have hs := List.getElem?_eq_getElem hf
    unfold numberOfNthOrderFactorsOfVariable.go
    simp only [hs]
    rw [ih (fun x hx => hfs x (by simp [hx])), List.filter_cons]
    have : hasOrder g n f = decide (g.scopes[f].length = n) := by simp only [hasOrder, hs]
    rw [this]
    by_cases e : g.scopes[f].length = n
    · simp [e]; omega
    · simp [e]

/-- C51 (count): `numberOfNthOrderFactorsOfVariable(v,n)` counts exactly the factors of `v` with `n` variables. -/
theorem C51_nthOrder_count (g : FG) (h : g.Exact) (v n : Nat) (hv : v < g.numVars) :
    ∃ l : List Nat, g.numberOfNthOrderFactorsOfVariable v n = some l.length ∧ l.Pairwise (· < ·) ∧
      ∀ f : Nat, f ∈ l ↔ ∃ s : List Nat, g.scopes[f]? = some s ∧ v ∈ s ∧ s.length = n := by
  obtain ⟨fs, a1, a2, a3⟩ := h.adj v hv
  have hfs : ∀ f ∈ fs, f < g.scopes.length := by
    intro f hf
    obtain ⟨s, hs, _⟩ := (a3 f).mp hf
    exact (List.getElem?_eq_some_iff.mp hs).1
  refine ⟨fs.filter (hasOrder g n), ?_,
    List.Pairwise.filter _ a2, ?_⟩
  · simp only [numberOfNthOrderFactorsOfVariable, a1]
    rw [nthOrder_go_spec g n fs hfs]; simp
  · intro f
    rw [List.mem_filter, a3, hasOrder_iff]
    constructor
    · rintro ⟨⟨s, h1, h2⟩, s', h3, h4⟩
      rw [h1] at h3
      obtain rfl := Option.some.inj h3
      exact ⟨s, h1, h2, h4⟩
    · rintro ⟨s, h1, h2, h3⟩
      exact ⟨⟨s, h1, h2⟩, s, h1, h3⟩

theorem nthOrder_ids_spec (g : FG) (n : Nat) (fs : List Nat) (hfs : ∀ f ∈ fs, f < g.scopes.length) :
    ∀ (done : List Nat) (c : Nat),
      c = (fs.filter (hasOrder g n)).length →
      nthOrderFactorsOfVariable.go g n fs c (List.replicate c 0 ++ done) =
        some ((fs.filter (hasOrder g n)).reverse ++ done) := by
  induction fs with
  | nil => intro done c hc; simp at hc; subst hc; simp [nthOrderFactorsOfVariable.go]
  | cons f fs ih =>
    intro done c hc
    have hf := hfs f (by simp)
    have hs := List.getElem?_eq_getElem hf
    have ih' := ih (fun x hx => hfs x (by simp [hx]))
    unfold nthOrderFactorsOfVariable.go
    simp only [hs]
    rw [List.filter_cons] at hc ⊢
    have hb : hasOrder g n f = decide (g.scopes[f].length = n) := by simp only [hasOrder, hs]
    rw [hb] at hc ⊢
    by_cases e : g.scopes[f].length = n
    · simp only [e, decide_true, if_true, List.length_cons] at hc ⊢
      subst hc
      simp only [setAt, List.length_append, List.length_replicate, List.replicate_succ']
      have hset : ∀ m, (List.replicate m 0 ++ [0] ++ done).set m f = List.replicate m 0 ++ f :: done := by
        intro m
        rw [List.append_assoc, List.set_append_right _ _ (by simp)]
        simp
      rw [if_pos (by simp; omega)]
      simp only [hset]
      rw [ih' (f :: done) _ rfl]
      simp
    · simp only [e, decide_false, if_false, Bool.false_eq_true] at hc ⊢
      exact ih' done c hc

/-- C51 (ids): the overload with an output vector returns exactly these factors, in decreasing order, and their number. -/
theorem C51_nthOrder_ids (g : FG) (h : g.Exact) (v n : Nat) (hv : v < g.numVars) :
    ∃ l : List Nat, g.nthOrderFactorsOfVariable v n = some (l.length, l) ∧ l.Pairwise (· > ·) ∧
      ∀ f : Nat, f ∈ l ↔ ∃ s : List Nat, g.scopes[f]? = some s ∧ v ∈ s ∧ s.length = n := by
  obtain ⟨fs, a1, a2, a3⟩ := h.adj v hv
  have hfs : ∀ f ∈ fs, f < g.scopes.length := by
    intro f hf
    obtain ⟨s, hs, _⟩ := (a3 f).mp hf
    exact (List.getElem?_eq_some_iff.mp hs).1
  refine ⟨(fs.filter (hasOrder g n)).reverse, ?_,
    ?_, ?_⟩
  · unfold nthOrderFactorsOfVariable
    simp only [a1, numberOfNthOrderFactorsOfVariable, nthOrder_go_spec g n fs hfs, Nat.zero_add]
    have := nthOrder_ids_spec g n fs hfs [] _ rfl
    simp only [List.append_nil] at this
    rw [this]; simp
  · rw [List.pairwise_reverse]; exact List.Pairwise.filter _ a2
  · intro f
    rw [List.mem_reverse, List.mem_filter, a3, hasOrder_iff]
    constructor
    · rintro ⟨⟨s, h1, h2⟩, s', h3, h4⟩
      rw [h1] at h3
      obtain rfl := Option.some.inj h3
      exact ⟨s, h1, h2, h4⟩
    · rintro ⟨s, h1, h2, h3⟩
      exact ⟨⟨s, h1, h2⟩, s, h1, h3⟩

/-- C51 (second variable): for a factor with the two variables `v ≠ w` the function returns the other one. -/
theorem C51_secondVariable (g : FG) (h : g.Exact) (f a b : Nat) (hf : g.scopes[f]? = some [a, b]) :
    g.secondVariableOfSecondOrderFactor a f = some b ∧ g.secondVariableOfSecondOrderFactor b f = some a := by
  have hs := h.sorted _ (List.mem_of_getElem? hf)
  have hab : a < b := by simpa using hs
  simp [secondVariableOfSecondOrderFactor, hf, secondVariableOfSecondOrderFactor.go]
  omega

example : demoGraph.nthOrderFactorsOfVariable 1 2 = some (2, [1, 0]) ∧ demoGraph.secondVariableOfSecondOrderFactor 2 1 = some 1 := by
  decide

end FG
end OpenGM
