import Verif.Lemmas.SwendsenWangEdge
import Verif.Lemmas.Partition
import Mathlib.Algebra.BigOperators.Group.List.Basic
import Mathlib.Tactic.Linarith
/-
Lemmas for Swendsen-Wang sampling: the table of probabilities, the clusters, and the search.
-/
namespace OpenGM.SwendsenWang
open Spec FactorOps Walkers Marray
variable {V F : Type} {gm : GM V} {p : Problem V}

/-! ### Adjacency -/

/-- The adjacency lists. -/
structure Adj (p : Problem V) (adj : List (List Nat)) : Prop where
  length : adj.length = p.numLabels.length
  list : ∀ v, v < p.numLabels.length → ∃ l, adj[v]? = some l ∧ l.Pairwise (· < ·) ∧ ∀ w, w ∈ l ↔ p.adjacent v w = true
  range : ∀ v w, p.adjacent v w = true → v < p.numLabels.length ∧ w < p.numLabels.length

theorem adjacent_symm (p : Problem V) (v w : Nat) : p.adjacent v w = p.adjacent w v := by
  unfold Problem.adjacent
  congr 1
  · exact decide_eq_decide.mpr ⟨Ne.symm, Ne.symm⟩
  · congr 1; funext t; exact Bool.and_comm _ _

theorem adj_spec (h : Represents gm p) : ∃ adj, gm.factorGraph.variableAdjacencyList = some adj ∧ Adj p adj := by
  obtain ⟨hex, hs, hnv⟩ := factorGraph_exact h
  obtain ⟨out, h1, h2, h3⟩ := FG.C09_adjacencyList gm.factorGraph hex
  refine ⟨out, h1, by rw [h2, hnv], ?_, ?_⟩
  · intro v hv
    obtain ⟨l, l1, l2, l3⟩ := h3 v (by rw [hnv]; exact hv)
    refine ⟨l, l1, l2, ?_⟩
    intro w
    rw [l3, hs]
    simp only [Problem.adjacent, Bool.and_eq_true, decide_eq_true_eq, List.any_eq_true, List.mem_map]
    constructor
    · rintro ⟨a, s, ⟨t, ht, rfl⟩, b, c⟩; exact ⟨a, t, ht, b, c⟩
    · rintro ⟨a, t, ht, b, c⟩; exact ⟨a, _, ⟨t, ht, rfl⟩, b, c⟩
  · intro v w hvw
    simp only [Problem.adjacent, Bool.and_eq_true, decide_eq_true_eq, List.any_eq_true] at hvw
    obtain ⟨_, t, ht, hv, hw⟩ := hvw
    have hr := hex.range t.vars (by rw [hs]; exact List.mem_map.mpr ⟨t, ht, rfl⟩)
    rw [hnv] at hr
    exact ⟨hr v hv, hr w hw⟩

theorem entry_some {A : Type} {t : List (List A)} {i j : Nat} {a : A} : entry t i j = some a ↔ ∃ l, t[i]? = some l ∧ l[j]? = some a := by
  unfold entry
  cases t[i]? <;> simp

theorem entry_adjacent {adj : List (List Nat)} (ha : Adj p adj) {v j w : Nat} (h : entry adj v j = some w) : p.adjacent v w = true := by
  obtain ⟨l, h1, h2⟩ := entry_some.mp h
  have hv := (List.getElem?_eq_some_iff.mp h1).1
  rw [ha.length] at hv
  obtain ⟨l', l1, _, l3⟩ := ha.list v hv
  rw [h1] at l1; cases l1
  exact (l3 w).mp (List.mem_of_getElem? h2)

theorem adjacent_entry {adj : List (List Nat)} (ha : Adj p adj) {v w : Nat} (h : p.adjacent v w = true) : ∃ j, entry adj v j = some w := by
  obtain ⟨hv, _⟩ := ha.range v w h
  obtain ⟨l', l1, _, l3⟩ := ha.list v hv
  obtain ⟨j, hj⟩ := List.mem_iff_getElem?.mp ((l3 w).mpr h)
  exact ⟨j, entry_some.mpr ⟨l', l1, hj⟩⟩

theorem mem_edges {adj : List (List Nat)} {v j : Nat} : (v, j) ∈ edges adj ↔ ∃ w, entry adj v j = some w := by
  unfold edges
  rw [List.mem_flatMap]
  constructor
  · rintro ⟨⟨l, v'⟩, h1, h2⟩
    rw [List.mem_map] at h2
    obtain ⟨j', hj', hh⟩ := h2
    cases hh
    obtain ⟨i, hi⟩ := List.mem_iff_getElem?.mp h1
    rw [List.getElem?_zip_eq_some] at hi
    obtain ⟨h3, h4⟩ := List.getElem?_eq_some_iff.mp hi.2
    rw [List.getElem_range] at h4
    simp only at h4
    subst h4
    have hj := List.mem_range.mp hj'
    exact ⟨l[j], entry_some.mpr ⟨l, hi.1, List.getElem?_eq_getElem hj⟩⟩
  · rintro ⟨w, hw⟩
    obtain ⟨l, h1, h2⟩ := entry_some.mp hw
    refine ⟨(l, v), ?_, ?_⟩
    · apply List.mem_of_getElem? (i := v)
      rw [List.getElem?_zip_eq_some]
      refine ⟨h1, ?_⟩
      rw [List.getElem?_range (List.getElem?_eq_some_iff.mp h1).1]
    · rw [List.mem_map]
      exact ⟨j, List.mem_range.mpr (List.getElem?_eq_some_iff.mp h2).1, rfl⟩

section
variable [Field F] [LinearOrder F]

/-! ### The table of probabilities -/

/-- The probability is computed without an exception. -/
def Good (q : Ops V F) (lowest : F) (p : Problem V) (v w : Nat) : Prop :=
  p.nearSum q.o.toOperation q.convert v w (fun a b => decide (a = b)) + p.nearSum q.o.toOperation q.convert v w (fun a b => decide (a ≠ b)) ≠ 0 ∧
  lowest ≤ p.edgeProbability q.o.toOperation q.convert v w ∧ lowest ≤ 1 - p.edgeProbability q.o.toOperation q.convert v w

omit [LinearOrder F] in
theorem edgeProbability_symm (o : Operation V) (p : Problem V) (c : V → F) (v w : Nat) : p.edgeProbability o c v w = p.edgeProbability o c w v := by
  have hT : p.nearTerms v w = p.nearTerms w v := by
    unfold Problem.nearTerms
    congr 1; funext t
    exact decide_eq_decide.mpr or_comm
  have hV : p.nearVars v w = p.nearVars w v := by unfold Problem.nearVars; rw [hT]
  have hS : ∀ test : Nat → Nat → Bool, (∀ a b, test a b = test b a) → p.nearSum o c v w test = p.nearSum o c w v test := by
    intro test ht
    unfold Problem.nearSum Problem.nearValue
    rw [hV, hT]
    congr 2
    funext t
    rw [ht]
  unfold Problem.edgeProbability
  rw [hS _ (fun a b => decide_eq_decide.mpr ⟨Ne.symm, Ne.symm⟩), hS _ (fun a b => decide_eq_decide.mpr ⟨Eq.symm, Eq.symm⟩)]
  by_cases h : p.numLabels[v]? = p.numLabels[w]?
  · rw [if_pos h, if_pos h.symm]
  · rw [if_neg h, if_neg (fun h' => h h'.symm)]

omit [LinearOrder F] in
theorem edgeProbability_of_ne (o : Operation V) (p : Problem V) (c : V → F) {v w : Nat} (h : p.numLabels[v]? ≠ p.numLabels[w]?) : p.edgeProbability o c v w = 0 := if_neg h

theorem edgeProbability_ok (h : Represents gm p) (hpos : ∀ n ∈ p.numLabels, 0 < n) (q : Ops V F) (lowest : F) {v w : Nat} (ha : p.adjacent v w = true) (hv : v < p.numLabels.length) (hw : w < p.numLabels.length)
    (he : p.numLabels[v]? = p.numLabels[w]?) :
    (Good q lowest p v w ∧ edgeProbability q lowest gm v w = .ok (p.edgeProbability q.o.toOperation q.convert v w) ()) ∨ (¬ Good q lowest p v w ∧ edgeProbability q lowest gm v w = .throw ()) := by
  rw [edgeProbability_spec h hpos q lowest ha hv hw]
  have hq : p.edgeProbability q.o.toOperation q.convert v w = p.nearSum q.o.toOperation q.convert v w (fun a b => decide (a ≠ b)) / (p.nearSum q.o.toOperation q.convert v w (fun a b => decide (a = b)) + p.nearSum q.o.toOperation q.convert v w (fun a b => decide (a ≠ b))) := if_pos he
  unfold Good
  simp only
  generalize p.nearSum q.o.toOperation q.convert v w (fun a b => decide (a = b)) = e at *
  generalize p.nearSum q.o.toOperation q.convert v w (fun a b => decide (a ≠ b)) = u at *
  rw [hq]
  by_cases h0 : e + u = 0
  · rw [if_pos h0]; exact Or.inr ⟨fun h => h.1 h0, rfl⟩
  · rw [if_neg h0]
    have h1 : 1 - u / (e + u) = e / (e + u) := by
      rw [eq_div_iff h0, sub_mul, div_mul_cancel₀ _ h0]; ring
    rw [h1]
    by_cases hl : e / (e + u) < lowest ∨ u / (e + u) < lowest
    · rw [if_pos hl]
      refine Or.inr ⟨fun h => ?_, rfl⟩
      rcases hl with hl | hl
      · exact absurd h.2.2 (not_le.mpr hl)
      · exact absurd h.2.1 (not_le.mpr hl)
    · rw [if_neg hl]
      push Not at hl
      exact Or.inl ⟨⟨h0, hl.2, hl.1⟩, rfl⟩

/-- The table with the probabilities, except for the edges `es`. -/
structure Tab (q : Ops V F) (p : Problem V) (adj : List (List Nat)) (es : List (Nat × Nat)) (t : List (List F)) : Prop where
  some : ∀ v j w, entry adj v j = some w → ∃ x, entry t v j = some x
  value : ∀ v j w, entry adj v j = .some w → (p.numLabels[v]? ≠ p.numLabels[w]? ∨ (v, j) ∉ es) → entry t v j = .some (p.edgeProbability q.o.toOperation q.convert v w)

omit [LinearOrder F] [Field F] in
theorem setEntry_spec {A : Type} {t : List (List A)} {i j : Nat} {a b : A} (h : entry t i j = some b) :
    ∃ t', setEntry t i j a = some t' ∧ entry t' i j = some a ∧ ∀ i' j', (i', j') ≠ (i, j) → entry t' i' j' = entry t i' j' := by
  obtain ⟨l, h1, h2⟩ := entry_some.mp h
  have hj := (List.getElem?_eq_some_iff.mp h2).1
  have hi := (List.getElem?_eq_some_iff.mp h1).1
  refine ⟨t.set i (l.set j a), by unfold setEntry; rw [h1]; simp only; rw [if_pos hj], ?_, ?_⟩
  · exact entry_some.mpr ⟨l.set j a, List.getElem?_set_self hi, List.getElem?_set_self hj⟩
  · intro i' j' hne
    unfold entry
    by_cases hii : i' = i
    · subst hii
      rw [List.getElem?_set_self hi, h1]
      simp only [Option.bind_some]
      rw [List.getElem?_set_ne (fun h => hne (by rw [h]))]
    · rw [List.getElem?_set_ne (fun h => hii h.symm)]

theorem compute_spec (h : Represents gm p) (hpos : ∀ n ∈ p.numLabels, 0 < n) (q : Ops V F) (lowest : F) {adj : List (List Nat)} (ha : Adj p adj) : ∀ (es : List (Nat × Nat)) (t : List (List F)),
    (∀ e ∈ es, ∃ w, entry adj e.1 e.2 = some w) → Tab q p adj es t →
    ((∀ v j w, (v, j) ∈ es → entry adj v j = some w → p.numLabels[v]? = p.numLabels[w]? → Good q lowest p v w) ∧ ∃ t', computeEdgeProbabilities q lowest gm adj es t = .ok () t' ∧ Tab q p adj [] t') ∨
    ((∃ v j w, (v, j) ∈ es ∧ entry adj v j = some w ∧ p.numLabels[v]? = p.numLabels[w]? ∧ ¬ Good q lowest p v w) ∧ ∃ t', computeEdgeProbabilities q lowest gm adj es t = .throw t')
  | [], t, _, ht => Or.inl ⟨by simp, t, rfl, ht⟩
  | (v, j) :: es, t, hes, ht => by
    obtain ⟨w, hw⟩ := hes (v, j) (by simp)
    simp only at hw
    have hadj := entry_adjacent ha hw
    obtain ⟨hv', hw'⟩ := ha.range v w hadj
    have nv : gm.numLabels[v]? = some (p.numLabels[v]) := by rw [h.labels, List.getElem?_eq_getElem hv']
    have nw : gm.numLabels[w]? = some (p.numLabels[w]) := by rw [h.labels, List.getElem?_eq_getElem hw']
    unfold computeEdgeProbabilities
    rw [hw]
    simp only
    rw [nv, nw]
    simp only
    have hes' : ∀ e ∈ es, ∃ w, entry adj e.1 e.2 = some w := fun e he => hes e (by simp [he])
    by_cases he : p.numLabels[v] = p.numLabels[w]
    · rw [if_pos he]
      have he' : p.numLabels[v]? = p.numLabels[w]? := by rw [List.getElem?_eq_getElem hv', List.getElem?_eq_getElem hw', he]
      rcases edgeProbability_ok h hpos q lowest hadj hv' hw' he' with ⟨hg, hok⟩ | ⟨hg, hth⟩
      · rw [hok]
        simp only
        obtain ⟨x, hx⟩ := ht.some v j w hw
        obtain ⟨t', s1, s2, s3⟩ := setEntry_spec (a := p.edgeProbability q.o.toOperation q.convert v w) hx
        rw [s1]
        simp only
        have ht' : Tab q p adj es t' := by
          refine ⟨?_, ?_⟩
          · intro v' j' w' hw'
            by_cases hh : (v', j') = (v, j)
            · cases hh; exact ⟨_, s2⟩
            · rw [s3 _ _ hh]; exact ht.some v' j' w' hw'
          · intro v' j' w' hw' hc
            by_cases hh : (v', j') = (v, j)
            · cases hh
              rw [hw] at hw'; cases hw'
              exact s2
            · rw [s3 _ _ hh]
              refine ht.value v' j' w' hw' (hc.imp_right (fun h h' => ?_))
              rcases List.mem_cons.mp h' with h' | h'
              · exact hh h'
              · exact h h'
        rcases compute_spec h hpos q lowest ha es t' hes' ht' with ⟨g1, g2⟩ | ⟨g1, g2⟩
        · refine Or.inl ⟨?_, g2⟩
          intro v' j' w' hm hw' heq
          rcases List.mem_cons.mp hm with hh | hm
          · cases hh; rw [hw] at hw'; cases hw'; exact hg
          · exact g1 v' j' w' hm hw' heq
        · obtain ⟨v', j', w', a1, a2⟩ := g1
          exact Or.inr ⟨⟨v', j', w', by simp [a1], a2⟩, g2⟩
      · rw [hth]
        exact Or.inr ⟨⟨v, j, w, by simp, hw, he', hg⟩, t, rfl⟩
    · rw [if_neg he]
      have he' : p.numLabels[v]? ≠ p.numLabels[w]? := by rw [List.getElem?_eq_getElem hv', List.getElem?_eq_getElem hw']; simpa using he
      have ht' : Tab q p adj es t := by
        refine ⟨ht.some, ?_⟩
        intro v' j' w' hw' hc
        by_cases hh : (v', j') = (v, j)
        · cases hh
          rw [hw] at hw'; cases hw'
          exact ht.value v j w hw (Or.inl he')
        · refine ht.value v' j' w' hw' (hc.imp_right (fun h h' => ?_))
          rcases List.mem_cons.mp h' with h' | h'
          · exact hh h'
          · exact h h'
      rcases compute_spec h hpos q lowest ha es t hes' ht' with ⟨g1, g2⟩ | ⟨g1, g2⟩
      · refine Or.inl ⟨?_, g2⟩
        intro v' j' w' hm hw' heq
        rcases List.mem_cons.mp hm with hh | hm
        · cases hh; rw [hw] at hw'; cases hw'; exact absurd heq he'
        · exact g1 v' j' w' hm hw' heq
      · obtain ⟨v', j', w', a1, a2⟩ := g1
        exact Or.inr ⟨⟨v', j', w', by simp [a1], a2⟩, g2⟩

theorem tab_init (q : Ops V F) {adj : List (List Nat)} : Tab q p adj (edges adj) (adj.map (fun l => List.replicate l.length (0 : F))) := by
  have key : ∀ v j w, entry adj v j = some w → entry (adj.map (fun l => List.replicate l.length (0 : F))) v j = some 0 := by
    intro v j w h
    obtain ⟨l, h1, h2⟩ := entry_some.mp h
    refine entry_some.mpr ⟨List.replicate l.length 0, by rw [List.getElem?_map, h1]; rfl, ?_⟩
    rw [List.getElem?_replicate, if_pos (List.getElem?_eq_some_iff.mp h2).1]
  refine ⟨fun v j w h => ⟨0, key v j w h⟩, ?_⟩
  intro v j w h hc
  rcases hc with hc | hc
  · rw [key v j w h, edgeProbability_of_ne _ _ _ hc]
  · exact absurd (mem_edges.mpr ⟨w, h⟩) hc

/-- All probabilities were computed. -/
def AllGood (q : Ops V F) (lowest : F) (p : Problem V) : Prop := ∀ v w, p.adjacent v w = true → p.numLabels[v]? = p.numLabels[w]? → Good q lowest p v w

/-! ### Clusters -/

/-- The edge is turned on. -/
@[reducible] def On (q : Ops V F) (p : Problem V) (x : List Nat) (r : Nat → Nat → F) (v w : Nat) : Prop := p.turnedOn q.o.toOperation q.convert x r v w

theorem clusterLoop_spec (q : Ops V F) {g : Obj V F} (ha : Adj p g.variableAdjacency) (ht : Tab q p g.variableAdjacency [] g.edgeProbabilities) (hx : p.Labeling g.movemaker.state) (d : Draw F) :
    ∀ (es : List (Nat × Nat)) (P : Partition) (s : Merged) (rep : Nat → Nat), (∀ e ∈ es, ∃ w, entry g.variableAdjacency e.1 e.2 = some w) → s.n = p.numLabels.length → Partition.Refines P s rep →
    ∃ P' s' rep', clusterLoop g d es P = some P' ∧ Partition.Refines P' s' rep' ∧ s'.n = s.n ∧
      ∀ v w, (v, w) ∈ s'.pairs ↔ (v, w) ∈ s.pairs ∨ ∃ j, (v, j) ∈ es ∧ entry g.variableAdjacency v j = some w ∧ On q p g.movemaker.state d.edge v w
  | [], P, s, rep, _, _, hr => ⟨P, s, rep, rfl, hr, rfl, by simp⟩
  | (v, j) :: es, P, s, rep, hes, hn, hr => by
    obtain ⟨w, hw⟩ := hes (v, j) (by simp)
    simp only at hw
    have hes' : ∀ e ∈ es, ∃ w, entry g.variableAdjacency e.1 e.2 = some w := fun e he => hes e (by simp [he])
    have hadj := entry_adjacent ha hw
    obtain ⟨hv', hw'⟩ := ha.range v w hadj
    have xv : g.movemaker.state[v]? = some (g.movemaker.state[v]'(by rw [hx.1]; exact hv')) := List.getElem?_eq_getElem _
    have xw : g.movemaker.state[w]? = some (g.movemaker.state[w]'(by rw [hx.1]; exact hw')) := List.getElem?_eq_getElem _
    have hp := ht.value v j w hw (Or.inr (by simp))
    have skip : ¬ On q p g.movemaker.state d.edge v w → (∃ P' s' rep', clusterLoop g d es P = some P' ∧ Partition.Refines P' s' rep' ∧ s'.n = s.n ∧
      ∀ v' w', (v', w') ∈ s'.pairs ↔ (v', w') ∈ s.pairs ∨ ∃ j', (v', j') ∈ (v, j) :: es ∧ entry g.variableAdjacency v' j' = some w' ∧ On q p g.movemaker.state d.edge v' w') := by
      intro hno
      obtain ⟨P', s', rep', b1, b2, b3, b4⟩ := clusterLoop_spec q ha ht hx d es P s rep hes' hn hr
      refine ⟨P', s', rep', b1, b2, b3, ?_⟩
      intro v' w'
      rw [b4]
      constructor
      · rintro (h | ⟨j', h1, h2⟩)
        · exact Or.inl h
        · exact Or.inr ⟨j', by simp [h1], h2⟩
      · rintro (h | ⟨j', h1, h2, h3⟩)
        · exact Or.inl h
        · rcases List.mem_cons.mp h1 with h1 | h1
          · cases h1; rw [hw] at h2; cases h2; exact absurd h3 hno
          · exact Or.inr ⟨j', h1, h2, h3⟩
    unfold clusterLoop
    rw [hw]
    simp only
    by_cases hlt : v < w
    · rw [if_pos hlt, xv, xw, hp]
      simp only
      by_cases hc : g.movemaker.state[v]'(by rw [hx.1]; exact hv') = g.movemaker.state[w]'(by rw [hx.1]; exact hw') ∧ p.edgeProbability q.o.toOperation q.convert v w > d.edge v w
      · rw [if_pos hc]
        have hon : On q p g.movemaker.state d.edge v w := ⟨hlt, hadj, by rw [xv, xw, hc.1], hc.2⟩
        obtain ⟨P1, rep1, e1, e2⟩ := Partition.step_refines hr (.merge v w) (show v < s.n ∧ w < s.n by rw [hn]; exact ⟨hv', hw'⟩)
        have e1' : P.merge v w = some P1 := e1
        rw [e1']
        simp only
        obtain ⟨P', s', rep', b1, b2, b3, b4⟩ := clusterLoop_spec q ha ht hx d es P1 (PartitionOp.apply s (.merge v w)) rep1 hes' hn e2
        refine ⟨P', s', rep', b1, b2, b3, ?_⟩
        intro v' w'
        rw [b4]
        simp only [PartitionOp.apply, List.mem_append, List.mem_singleton]
        constructor
        · rintro ((h | h) | ⟨j', h1, h2⟩)
          · exact Or.inl h
          · cases h; exact Or.inr ⟨j, by simp, hw, hon⟩
          · exact Or.inr ⟨j', by simp [h1], h2⟩
        · rintro (h | ⟨j', h1, h2, h3⟩)
          · exact Or.inl (Or.inl h)
          · rcases List.mem_cons.mp h1 with h1 | h1
            · cases h1; rw [hw] at h2; cases h2; exact Or.inl (Or.inr rfl)
            · exact Or.inr ⟨j', h1, h2, h3⟩
      · rw [if_neg hc]
        refine skip ?_
        rintro ⟨_, _, h1, h2⟩
        rw [xv, xw] at h1
        exact hc ⟨by simpa using h1, h2⟩
    · rw [if_neg hlt]
      exact skip (fun h => hlt h.1)

theorem cluster_spec (q : Ops V F) {g : Obj V F} (ha : Adj p g.variableAdjacency) (ht : Tab q p g.variableAdjacency [] g.edgeProbabilities) (hx : p.Labeling g.movemaker.state) (d : Draw F) :
    ∃ P s rep, clusterLoop g d (edges g.variableAdjacency) (Partition.ofSize p.numLabels.length) = some P ∧ Partition.Refines P s rep ∧ s.n = p.numLabels.length ∧
      ∀ v w, (v, w) ∈ s.pairs ↔ On q p g.movemaker.state d.edge v w := by
  obtain ⟨P, s, rep, a1, a2, a3, a4⟩ := clusterLoop_spec q ha ht hx d (edges g.variableAdjacency) _ ⟨p.numLabels.length, []⟩ id (fun e he => mem_edges.mp he) rfl (Partition.ofSize_refines _)
  refine ⟨P, s, rep, a1, a2, a3, ?_⟩
  intro v w
  rw [a4]
  constructor
  · rintro (h | ⟨j, _, _, h⟩)
    · simp at h
    · exact h
  · intro h
    obtain ⟨j, hj⟩ := adjacent_entry ha h.2.1
    exact Or.inr ⟨j, mem_edges.mpr ⟨w, hj⟩, hj, h⟩

end

/-! ### The search -/

/-- All variables that the search has seen. -/
def Search.all (s : Search) : List Nat := s.variablesInCluster ++ (s.stack ++ s.variablesAroundCluster)

structure Found (p : Problem V) (rep : Nat → Nat) (r : Nat) (s : Search) : Prop where
  part : Partition.Inv s.partition rep
  size : s.partition.numberOfElements = p.numLabels.length
  len : s.visited.length = p.numLabels.length
  visited : ∀ v, v < p.numLabels.length → s.visited[v]? = some (decide (v ∈ s.all))
  nodup : s.all.Nodup
  inside : ∀ v, v ∈ s.variablesInCluster ∨ v ∈ s.stack → v < p.numLabels.length ∧ rep v = r
  around : ∀ v ∈ s.variablesAroundCluster, v < p.numLabels.length ∧ rep v ≠ r ∧ ∃ w ∈ s.variablesInCluster, p.adjacent w v = true

theorem searchAdjacent_spec {rep : Nat → Nat} {r : Nat} (u : Nat) : ∀ (ws : List Nat) (s : Search), Found p rep r s → u ∈ s.variablesInCluster → (∀ w ∈ ws, w < p.numLabels.length ∧ p.adjacent u w = true) →
    ∃ s', searchAdjacent r ws s = some s' ∧ Found p rep r s' ∧ s'.variablesInCluster = s.variablesInCluster ∧ (∀ v ∈ s.all, v ∈ s'.all) ∧ ∀ w ∈ ws, w ∈ s'.all
  | [], s, hf, _, _ => ⟨s, rfl, hf, rfl, fun v hv => hv, by simp⟩
  | w :: ws, s, hf, hu, hw => by
    obtain ⟨hwn, hwa⟩ := hw w (by simp)
    have hws : ∀ w ∈ ws, w < p.numLabels.length ∧ p.adjacent u w = true := fun w' hw' => hw w' (by simp [hw'])
    unfold searchAdjacent
    rw [hf.visited w hwn]
    by_cases hm : w ∈ s.all
    · rw [decide_eq_true hm]
      simp only
      obtain ⟨s', a1, a2, a3, a4, a5⟩ := searchAdjacent_spec u ws s hf hu hws
      refine ⟨s', a1, a2, a3, a4, ?_⟩
      intro w' hw'
      rcases List.mem_cons.mp hw' with rfl | hw'
      · exact a4 _ hm
      · exact a5 w' hw'
    · rw [decide_eq_false hm]
      simp only
      obtain ⟨P', e1, e2, e3, _⟩ := Partition.find_spec hf.part (x := w) (by rw [hf.size]; exact hwn)
      rw [e1]
      simp only
      have hvis : ∀ (l : List Nat), (∀ v, v ∈ l ↔ v = w ∨ v ∈ s.all) → ∀ v, v < p.numLabels.length → (s.visited.set w true)[v]? = some (decide (v ∈ l)) := by
        intro l hl v hv
        by_cases hvw : v = w
        · subst hvw
          rw [List.getElem?_set_self (by rw [hf.len]; exact hv), decide_eq_true ((hl v).mpr (Or.inl rfl))]
        · rw [List.getElem?_set_ne (fun h => hvw h.symm), hf.visited v hv]
          congr 1
          exact decide_eq_decide.mpr ⟨fun h => (hl v).mpr (Or.inr h), fun h => ((hl v).mp h).resolve_left hvw⟩
      by_cases hr : rep w = r
      · rw [if_pos hr]
        have hall : ∀ v, v ∈ s.variablesInCluster ++ (w :: s.stack ++ s.variablesAroundCluster) ↔ v = w ∨ v ∈ s.all := by
          intro v
          unfold Search.all
          simp only [List.mem_append, List.mem_cons]
          tauto
        have hnd : (s.variablesInCluster ++ (w :: s.stack ++ s.variablesAroundCluster)).Nodup := by
          have : (s.variablesInCluster ++ (w :: s.stack ++ s.variablesAroundCluster)).Perm (w :: s.all) := by
            unfold Search.all
            rw [List.cons_append]
            exact List.perm_middle
          exact this.nodup_iff.mpr (List.nodup_cons.mpr ⟨hm, hf.nodup⟩)
        obtain ⟨s', a1, a2, a3, a4, a5⟩ := searchAdjacent_spec u ws ⟨P', s.visited.set w true, w :: s.stack, s.variablesInCluster, s.variablesAroundCluster⟩
          ⟨e2, by rw [e3]; exact hf.size, by rw [List.length_set]; exact hf.len, hvis _ hall, hnd, by
            intro v hv
            simp only [List.mem_cons] at hv
            rcases hv with hv | rfl | hv
            · exact hf.inside v (Or.inl hv)
            · exact ⟨hwn, hr⟩
            · exact hf.inside v (Or.inr hv), hf.around⟩ hu hws
        refine ⟨s', a1, a2, a3, fun v hv => a4 v ((hall v).mpr (Or.inr hv)), ?_⟩
        intro w' hw'
        rcases List.mem_cons.mp hw' with rfl | hw'
        · exact a4 _ ((hall _).mpr (Or.inl rfl))
        · exact a5 w' hw'
      · rw [if_neg hr]
        have hall : ∀ v, v ∈ s.variablesInCluster ++ (s.stack ++ (s.variablesAroundCluster ++ [w])) ↔ v = w ∨ v ∈ s.all := by
          intro v
          unfold Search.all
          simp only [List.mem_append, List.mem_singleton]
          tauto
        have hnd : (s.variablesInCluster ++ (s.stack ++ (s.variablesAroundCluster ++ [w]))).Nodup := by
          have : (s.variablesInCluster ++ (s.stack ++ (s.variablesAroundCluster ++ [w]))).Perm (w :: s.all) := by
            unfold Search.all
            rw [← List.append_assoc, ← List.append_assoc, ← List.append_assoc]
            exact List.perm_append_comm
          exact this.nodup_iff.mpr (List.nodup_cons.mpr ⟨hm, hf.nodup⟩)
        obtain ⟨s', a1, a2, a3, a4, a5⟩ := searchAdjacent_spec u ws ⟨P', s.visited.set w true, s.stack, s.variablesInCluster, s.variablesAroundCluster ++ [w]⟩
          ⟨e2, by rw [e3]; exact hf.size, by rw [List.length_set]; exact hf.len, hvis _ hall, hnd, hf.inside, by
            intro v hv
            simp only [List.mem_append, List.mem_singleton] at hv
            rcases hv with hv | rfl
            · exact hf.around v hv
            · exact ⟨hwn, hr, u, hu, hwa⟩⟩ hu hws
        refine ⟨s', a1, a2, a3, fun v hv => a4 v ((hall v).mpr (Or.inr hv)), ?_⟩
        intro w' hw'
        rcases List.mem_cons.mp hw' with rfl | hw'
        · exact a4 _ ((hall _).mpr (Or.inl rfl))
        · exact a5 w' hw'

theorem search_spec {rep : Nat → Nat} {r : Nat} {adj : List (List Nat)} (ha : Adj p adj) : ∀ (fuel : Nat) (s : Search), Found p rep r s → r ∈ s.all → (∀ v ∈ s.variablesInCluster, ∀ w, p.adjacent v w = true → w ∈ s.all) →
    p.numLabels.length < fuel + s.variablesInCluster.length →
    ∃ s', search adj r fuel s = some s' ∧ Found p rep r s' ∧ s'.stack = [] ∧ r ∈ s'.all ∧ ∀ v ∈ s'.variablesInCluster, ∀ w, p.adjacent v w = true → w ∈ s'.all := by
  intro fuel
  induction fuel with
  | zero =>
    intro s hf _ _ hlen
    exfalso
    have hnd : s.variablesInCluster.Nodup := (List.nodup_append.mp hf.nodup).1
    have hsub : s.variablesInCluster ⊆ List.range p.numLabels.length := fun v hv => List.mem_range.mpr (hf.inside v (Or.inl hv)).1
    have := hnd.length_le_of_subset hsub
    rw [List.length_range] at this
    omega
  | succ fuel ih =>
    intro s hf hr hc hlen
    unfold search
    cases hs : s.stack with
    | nil => exact ⟨s, rfl, hf, hs, hr, hc⟩
    | cons v stack =>
      simp only
      have hv := hf.inside v (Or.inr (by rw [hs]; simp))
      obtain ⟨ws, w1, w2, w3⟩ := ha.list v hv.1
      rw [w1]
      simp only
      have hall : ∀ u, u ∈ (s.variablesInCluster ++ [v]) ++ (stack ++ s.variablesAroundCluster) ↔ u ∈ s.all := by
        intro u
        unfold Search.all
        rw [hs]
        simp only [List.mem_append, List.mem_cons, List.not_mem_nil, or_false]
        tauto
      have hperm : ((s.variablesInCluster ++ [v]) ++ (stack ++ s.variablesAroundCluster)) = s.all := by
        unfold Search.all
        rw [hs]; simp
      obtain ⟨s', a1, a2, a3, a4, a5⟩ := searchAdjacent_spec (p := p) (rep := rep) (r := r) v ws ⟨s.partition, s.visited, stack, s.variablesInCluster ++ [v], s.variablesAroundCluster⟩
        ⟨hf.part, hf.size, hf.len, by
          intro u hu
          show s.visited[u]? = some (decide (u ∈ (s.variablesInCluster ++ [v]) ++ (stack ++ s.variablesAroundCluster)))
          rw [hperm]; exact hf.visited u hu, by
          show ((s.variablesInCluster ++ [v]) ++ (stack ++ s.variablesAroundCluster)).Nodup
          rw [hperm]; exact hf.nodup, by
          intro u hu
          simp only [List.mem_append, List.mem_singleton] at hu
          rcases hu with (hu | rfl) | hu
          · exact hf.inside u (Or.inl hu)
          · exact hv
          · exact hf.inside u (Or.inr (by rw [hs]; simp [hu])), by
          intro u hu
          obtain ⟨b1, b2, w, b3, b4⟩ := hf.around u hu
          exact ⟨b1, b2, w, by simp [b3], b4⟩⟩ (by simp) (fun w hw => ⟨(ha.range v w ((w3 w).mp hw)).2, (w3 w).mp hw⟩)
      rw [a1]
      simp only
      apply ih s' a2
      · exact a4 r ((hall r).mpr hr)
      · intro u hu w hw
        rw [a3] at hu
        simp only [List.mem_append, List.mem_singleton] at hu
        rcases hu with hu | rfl
        · exact a4 w ((hall w).mpr (hc u hu w hw))
        · exact a5 w ((w3 w).mpr hw)
      · rw [a3]
        simp only [List.length_append, List.length_singleton]
        omega

/-- The cluster is found. -/
theorem search_cluster {rep : Nat → Nat} {r : Nat} {adj : List (List Nat)} (ha : Adj p adj) {P : Partition} {sm : Merged} (hP : Partition.Refines P sm rep) (hn : sm.n = p.numLabels.length) (hr : r < p.numLabels.length) (hrr : rep r = r)
    (hon : ∀ v w, (v, w) ∈ sm.pairs → p.adjacent v w = true) :
    ∃ s, search adj r (p.numLabels.length + 1) ⟨P, (List.replicate p.numLabels.length false).set r true, [r], [], []⟩ = some s ∧ Partition.Inv s.partition rep ∧ s.partition.numberOfElements = p.numLabels.length ∧
      s.variablesInCluster.Nodup ∧ s.variablesAroundCluster.Nodup ∧ (∀ v, v ∈ s.variablesInCluster ↔ v < p.numLabels.length ∧ rep v = r) ∧
      (∀ v, v ∈ s.variablesAroundCluster ↔ v < p.numLabels.length ∧ rep v ≠ r ∧ ∃ w, rep w = r ∧ p.adjacent w v = true) ∧
      (clean s.variablesInCluster s.visited).bind (clean s.variablesAroundCluster) = some (List.replicate p.numLabels.length false) := by
  obtain ⟨s, a1, a2, a3, a4, a5⟩ := search_spec (rep := rep) (r := r) ha (p.numLabels.length + 1) ⟨P, (List.replicate p.numLabels.length false).set r true, [r], [], []⟩
    ⟨hP.toInv, by rw [← hn]; exact hP.size, by simp, by
      intro v hv
      simp only [Search.all, List.nil_append, List.append_nil, List.mem_singleton]
      by_cases h : v = r
      · subst h
        rw [List.getElem?_set_self (by simpa using hv)]; simp
      · rw [List.getElem?_set_ne (fun h' => h h'.symm), List.getElem?_replicate, if_pos hv]; simp [h], by simp [Search.all], by
      intro v hv
      simp only [List.not_mem_nil, List.mem_singleton, false_or] at hv
      subst hv; exact ⟨hr, hrr⟩, by simp⟩ (by simp [Search.all]) (by simp) (by simp)
  have hall : s.all = s.variablesInCluster ++ s.variablesAroundCluster := by unfold Search.all; rw [a3]; rfl
  have hin : ∀ v, v ∈ s.all → rep v = r → v ∈ s.variablesInCluster := by
    intro v hv hr'
    rw [hall, List.mem_append] at hv
    rcases hv with hv | hv
    · exact hv
    · exact absurd hr' (a2.around v hv).2.1
  have hlt : ∀ v w, (v, w) ∈ sm.pairs → rep v = rep w := by
    intro v w hvw
    obtain ⟨h1, h2⟩ := hP.inRange _ hvw
    exact (hP.equiv v w h1 h2).mpr (Relation.EqvGen.rel _ _ hvw)
  have hclosed : ∀ v w, sm.Equiv v w → (v ∈ s.variablesInCluster ↔ w ∈ s.variablesInCluster) := by
    intro v w h
    induction h with
    | rel v w h =>
      have hadj := hon v w h
      have hrep := hlt v w h
      constructor
      · intro hv
        exact hin w (a5 v hv w hadj) (by rw [← hrep]; exact (a2.inside v (Or.inl hv)).2)
      · intro hw
        exact hin v (a5 w hw v (by rw [adjacent_symm]; exact hadj)) (by rw [hrep]; exact (a2.inside w (Or.inl hw)).2)
    | refl v => exact Iff.rfl
    | symm v w _ ih => exact ih.symm
    | trans v w u _ _ ih1 ih2 => exact ih1.trans ih2
  have hmem : ∀ v, v ∈ s.variablesInCluster ↔ v < p.numLabels.length ∧ rep v = r := by
    intro v
    constructor
    · exact fun h => a2.inside v (Or.inl h)
    · rintro ⟨h1, h2⟩
      have : sm.Equiv r v := (hP.equiv r v (by rw [hn]; exact hr) (by rw [hn]; exact h1)).mp (by rw [hrr, h2])
      exact (hclosed r v this).mp (hin r a4 hrr)
  have hnd := hall ▸ a2.nodup
  rw [List.nodup_append] at hnd
  refine ⟨s, a1, a2.part, a2.size, hnd.1, hnd.2.1, hmem, ?_, ?_⟩
  · intro v
    constructor
    · intro hv
      obtain ⟨h1, h2, w, h3, h4⟩ := a2.around v hv
      exact ⟨h1, h2, w, (a2.inside w (Or.inl h3)).2, h4⟩
    · rintro ⟨h1, h2, w, h3, h4⟩
      have hw := (hmem w).mpr ⟨(ha.range w v h4).1, h3⟩
      have := a5 w hw v h4
      rw [hall, List.mem_append] at this
      exact this.resolve_left (fun h => h2 (a2.inside v (Or.inl h)).2)
  · have hclean : ∀ (vs : List Nat) (b : List Bool), b.length = p.numLabels.length → (∀ v ∈ vs, v < p.numLabels.length) → ∃ b', clean vs b = some b' ∧ b'.length = p.numLabels.length ∧
        ∀ v, v < p.numLabels.length → b'[v]? = if v ∈ vs then some false else b[v]? := by
      intro vs
      induction vs with
      | nil => intro b h1 _; exact ⟨b, rfl, h1, by simp⟩
      | cons v vs ih =>
        intro b h1 h2
        obtain ⟨b', c1, c2, c3⟩ := ih (b.set v false) (by rw [List.length_set]; exact h1) (fun u hu => h2 u (by simp [hu]))
        refine ⟨b', by simp only [clean]; rw [if_pos (by rw [h1]; exact h2 v (by simp))]; exact c1, c2, ?_⟩
        intro u hu
        rw [c3 u hu]
        by_cases huv : u = v
        · subst huv
          rw [List.getElem?_set_self (by rw [h1]; exact hu)]
          simp
        · rw [List.getElem?_set_ne (fun h => huv h.symm)]
          simp [huv]
    obtain ⟨b1, c1, c2, c3⟩ := hclean s.variablesInCluster s.visited a2.len (fun v hv => (a2.inside v (Or.inl hv)).1)
    obtain ⟨b2, d1, d2, d3⟩ := hclean s.variablesAroundCluster b1 c2 (fun v hv => (a2.around v hv).1)
    rw [c1, Option.bind_some, d1]
    refine congrArg some ?_
    apply List.ext_getElem?
    intro v
    by_cases hv : v < p.numLabels.length
    · rw [d3 v hv, c3 v hv, a2.visited v hv, List.getElem?_replicate, if_pos hv]
      rw [hall]
      simp only [List.mem_append]
      by_cases h1 : v ∈ s.variablesAroundCluster
      · simp [h1]
      · by_cases h2 : v ∈ s.variablesInCluster <;> simp [h1, h2]
    · rw [List.getElem?_eq_none (by omega), List.getElem?_eq_none (by simp; omega)]

end OpenGM.SwendsenWang
