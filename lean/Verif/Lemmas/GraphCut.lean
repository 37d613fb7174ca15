import Verif.Model.GraphCut
import Mathlib.Algebra.BigOperators.Ring.Finset
import Mathlib.Tactic.Ring
import Mathlib.Tactic.Linarith
/-
Lemmas about the construction of the network in class GraphCut.
-/
namespace OpenGM
namespace GraphCut
open Spec
variable {V : Type} [CommRing V] [LinearOrder V]

/-- The capacity of source and sink edges cut by `seg`. -/
def terminal (s t : List V) (seg : List Bool) : V :=
  ∑ i ∈ Finset.range s.length, if side seg (i + 2) then s.getD i 0 else t.getD i 0

/-- The capacity of the cut `seg` after the terminal edges will have been added. -/
def pot (g : GC V) (seg : List Bool) : V := g.network.cutValue seg + terminal g.sEdges g.tEdges seg

structure WF (g : GC V) : Prop where
  nodes : g.network.numNodes = 2 + g.sEdges.length
  tlen : g.tEdges.length = g.sEdges.length
  ends : ∀ e ∈ g.network.edges, e.from_ < g.network.numNodes ∧ e.to_ < g.network.numNodes

structure NN (g : GC V) : Prop where
  edges : ∀ e ∈ g.network.edges, 0 ≤ e.cap
  s : ∀ c ∈ g.sEdges, 0 ≤ c
  t : ∀ c ∈ g.tEdges, 0 ≤ c

/-- The parts that requests do not change. -/
structure Frame (g g' : GC V) : Prop where
  tolerance : g'.tolerance = g.tolerance
  scale : g'.scale = g.scale
  numVariables : g'.numVariables = g.numVariables
  numFacDim3 : g'.numFacDim3 = g.numFacDim3
  state : g'.state = g.state
  inferenceDone : g'.inferenceDone = g.inferenceDone
  slen : g'.sEdges.length = g.sEdges.length

theorem Frame.refl (g : GC V) : Frame g g := ⟨rfl, rfl, rfl, rfl, rfl, rfl, rfl⟩
theorem Frame.trans {a b c : GC V} (h : Frame a b) (h' : Frame b c) : Frame a c :=
  ⟨h'.tolerance.trans h.tolerance, h'.scale.trans h.scale, h'.numVariables.trans h.numVariables,
   h'.numFacDim3.trans h.numFacDim3, h'.state.trans h.state, h'.inferenceDone.trans h.inferenceDone, h'.slen.trans h.slen⟩

/-- The request as seen by the cut. -/
def crossVal (seg : List Bool) (r : Nat × Nat × V) : V := if !side seg r.1 && side seg r.2.1 then r.2.2 else 0

/-- The request concerns nodes of the graph (with `N` nodes besides source and sink). -/
def ValidReq (N : Nat) (r : Nat × Nat × V) : Prop :=
  (r.1 = 0 ∧ 2 ≤ r.2.1 ∧ r.2.1 < N + 2) ∨ (2 ≤ r.1 ∧ r.1 < N + 2 ∧ r.2.1 = 1) ∨
    (2 ≤ r.1 ∧ r.1 < N + 2 ∧ 2 ≤ r.2.1 ∧ r.2.1 < N + 2)

theorem side_zero (seg : List Bool) : side seg 0 = false := rfl
theorem side_one (seg : List Bool) : side seg 1 = true := rfl

theorem addAt_spec {l : List V} {i : Nat} (x : V) (h : i < l.length) : addAt l i x = some (l.set i (l.getD i 0 + x)) := by
  unfold addAt
  rw [List.getElem?_eq_getElem h]
  simp [h]

theorem sum_shift (n k : Nat) (hk : k < n) (F F' : Nat → V) (d : V) (h1 : F' k = F k + d) (h2 : ∀ i, i ≠ k → F' i = F i) :
    ∑ i ∈ Finset.range n, F' i = (∑ i ∈ Finset.range n, F i) + d := by
  have : ∀ i ∈ Finset.range n, F' i = F i + if i = k then d else 0 := by
    intro i _
    by_cases h : i = k
    · subst h; simp [h1]
    · simp [h, h2 i h]
  rw [Finset.sum_congr rfl this, Finset.sum_add_distrib, Finset.sum_ite_eq']
  simp [hk]

theorem addEdgeCapacity_spec [IsStrictOrderedRing V] (g : GC V) (hw : WF g) (v w : Nat) (x : V) (hv : ValidReq g.sEdges.length (v, w, x)) :
    ∃ g', addEdgeCapacity g v w x = some g' ∧ WF g' ∧ Frame g g' ∧
      (∀ seg, pot g' seg = pot g seg + g.scale * crossVal seg (v, w, x)) ∧ (0 ≤ g.scale → 0 ≤ x → NN g → NN g') := by
  unfold addEdgeCapacity
  simp only
  rcases hv with ⟨h1, h2, h3⟩ | ⟨h1, h2, h3⟩ | ⟨h1, h2, h3, h4⟩
  · simp only at h1 h2 h3
    rw [if_pos h1, if_neg (by omega), addAt_spec _ (by omega)]
    have hk : w - 2 < g.sEdges.length := by omega
    refine ⟨_, rfl, ⟨by simpa using hw.nodes, by simpa using hw.tlen, hw.ends⟩, ⟨rfl, rfl, rfl, rfl, rfl, rfl, by simp⟩, ?_, ?_⟩
    · intro seg
      simp only [pot, terminal, List.length_set]
      rw [sum_shift _ (w - 2) hk (fun i => if side seg (i + 2) then g.sEdges.getD i 0 else g.tEdges.getD i 0) _
        (g.scale * crossVal seg (v, w, x))]
      · ring
      · have : w - 2 + 2 = w := by omega
        simp only [this, crossVal, h1]
        by_cases hs : side seg w
        · simp [hs, hk, side_zero]
        · simp [hs]
      · intro i hi
        simp [Ne.symm hi]
    · intro hsc hx hn
      refine ⟨hn.edges, ?_, hn.t⟩
      intro c hc
      rcases List.mem_or_eq_of_mem_set hc with hc | hc
      · exact hn.s c hc
      · rw [hc]
        have h4 : 0 ≤ g.sEdges.getD (w - 2) 0 := by
          have := hn.s _ (List.getElem_mem hk)
          simpa [hk] using this
        have := mul_nonneg hsc hx
        exact add_nonneg h4 this
  · simp only at h1 h2 h3
    rw [if_neg (by omega), if_pos h3, if_neg (by omega), addAt_spec _ (by rw [hw.tlen]; omega)]
    have hk : v - 2 < g.sEdges.length := by omega
    have hk' : v - 2 < g.tEdges.length := by rw [hw.tlen]; omega
    refine ⟨_, rfl, ⟨by simpa using hw.nodes, by simpa using hw.tlen, hw.ends⟩, ⟨rfl, rfl, rfl, rfl, rfl, rfl, by simp⟩, ?_, ?_⟩
    · intro seg
      simp only [pot, terminal]
      rw [sum_shift _ (v - 2) hk (fun i => if side seg (i + 2) then g.sEdges.getD i 0 else g.tEdges.getD i 0) _
        (g.scale * crossVal seg (v, w, x))]
      · ring
      · have : v - 2 + 2 = v := by omega
        simp only [this, crossVal, h3]
        by_cases hs : side seg v
        · simp [hs]
        · simp [hs, hk', side_one]
      · intro i hi
        simp [Ne.symm hi]
    · intro hsc hx hn
      refine ⟨hn.edges, hn.s, ?_⟩
      intro c hc
      rcases List.mem_or_eq_of_mem_set hc with hc | hc
      · exact hn.t c hc
      · rw [hc]
        have h4 : 0 ≤ g.tEdges.getD (v - 2) 0 := by
          have := hn.t _ (List.getElem_mem hk')
          simpa [hk'] using this
        have := mul_nonneg hsc hx
        exact add_nonneg h4 this
  · simp only at h1 h2 h3 h4
    have hn' := hw.nodes
    rw [if_neg (by omega), if_neg (by omega), solverAddEdge, if_pos (by omega)]
    refine ⟨_, rfl, ⟨hw.nodes, hw.tlen, ?_⟩, ⟨rfl, rfl, rfl, rfl, rfl, rfl, rfl⟩, ?_, ?_⟩
    · intro e he
      simp only [List.mem_append, List.mem_singleton] at he
      rcases he with he | he
      · exact hw.ends e he
      · subst he; simp only; omega
    · intro seg
      simp only [pot, Network.cutValue, List.map_append, List.sum_append, List.map_cons, List.map_nil, List.sum_cons,
        List.sum_nil, Edge.crosses, crossVal]
      by_cases hc : (!side seg v && side seg w) = true
      · simp only [hc, if_true]; ring
      · simp only [hc]; simp
    · intro hsc hx hn
      refine ⟨?_, hn.s, hn.t⟩
      intro e he
      simp only [List.mem_append, List.mem_singleton] at he
      rcases he with he | he
      · exact hn.edges e he
      · subst he; exact mul_nonneg hsc hx

theorem request_spec [IsStrictOrderedRing V] (rs : List (Nat × Nat × V)) : ∀ (g : GC V), WF g → (∀ r ∈ rs, ValidReq g.sEdges.length r) →
    ∃ g', request g rs = some g' ∧ WF g' ∧ Frame g g' ∧
      (∀ seg, pot g' seg = pot g seg + g.scale * (rs.map (crossVal seg)).sum) ∧
      (0 ≤ g.scale → (∀ r ∈ rs, 0 ≤ r.2.2) → NN g → NN g') := by
  induction rs with
  | nil =>
    intro g hw _
    exact ⟨g, rfl, hw, Frame.refl g, by simp, fun _ _ h => h⟩
  | cons r rs ih =>
    intro g hw hv
    obtain ⟨v, w, x⟩ := r
    obtain ⟨g1, e1, w1, f1, p1, n1⟩ := addEdgeCapacity_spec g hw v w x (hv _ (by simp))
    obtain ⟨g2, e2, w2, f2, p2, n2⟩ := ih g1 w1 (by intro r hr; rw [f1.slen]; exact hv r (by simp [hr]))
    refine ⟨g2, ?_, w2, f1.trans f2, ?_, ?_⟩
    · simp only [request, e1, e2]
    · intro seg
      rw [p2, p1, f1.scale]
      simp only [List.map_cons, List.sum_cons]
      ring
    · intro hs hr hn
      exact n2 (by rw [f1.scale]; exact hs) (fun r h => hr r (by simp [h])) (n1 hs (hr (v, w, x) (by simp)) hn)

/-- The label of variable `v` in the partition. -/
def lab (seg : List Bool) (v : Nat) : Nat := if side seg (v + 2) then 1 else 0

theorem unary_sum [IsStrictOrderedRing V] (var : Nat) (f : List Nat → V) :
    ∃ c, ∀ seg, ((unaryRequests .minimizer var (f [0]) (f [1])).map (crossVal seg)).sum = f [lab seg var] + c := by
  unfold unaryRequests
  rw [if_pos rfl]
  by_cases h : f [0] ≤ f [1]
  · rw [if_pos h]
    refine ⟨-f [0], fun seg => ?_⟩
    by_cases hs : side seg (var + 2) <;> simp [crossVal, hs, lab, side_zero] <;> ring
  · rw [if_neg h]
    refine ⟨-f [1], fun seg => ?_⟩
    by_cases hs : side seg (var + 2) <;> simp [crossVal, hs, lab, side_one] <;> ring

theorem pair_sum [IsStrictOrderedRing V] (tol : V) (a b : Nat) (f : List Nat → V)
    (h : f [0, 0] + f [1, 1] ≤ f [0, 1] + f [1, 0] ∨ f [0, 1] + f [1, 0] - f [0, 0] - f [1, 1] < -tol) :
    ∃ c, ∀ seg, ((pairRequests tol .minimizer a b (f [0, 0]) (f [0, 1]) (f [1, 0]) (f [1, 1])).map (crossVal seg)).sum =
      f [lab seg a, lab seg b] + c := by
  unfold pairRequests
  rw [if_pos rfl]
  have hterm : (if f [0, 1] + f [1, 0] - f [0, 0] - f [1, 1] < 0 ∧ -tol ≤ f [0, 1] + f [1, 0] - f [0, 0] - f [1, 1] then 0
      else f [0, 1] + f [1, 0] - f [0, 0] - f [1, 1]) = f [0, 1] + f [1, 0] - f [0, 0] - f [1, 1] := by
    rw [if_neg]
    rintro ⟨h1, h2⟩
    rcases h with h | h
    · linarith
    · exact absurd h2 (not_le.mpr h)
  rw [hterm]
  generalize hA0 : f [0, 0] = A at *
  have hA : ∃ c1, ∀ seg, (((if A < f [1, 0] then [(0, a + 2, f [1, 0] - A)] else if f [1, 0] < A then [(a + 2, 1, A - f [1, 0])]
      else []) : List (Nat × Nat × V)).map (crossVal seg)).sum = (if side seg (a + 2) then f [1, 0] else A) + c1 := by
    by_cases h1 : A < f [1, 0]
    · refine ⟨-A, fun seg => ?_⟩
      rw [if_pos h1]
      by_cases hs : side seg (a + 2) <;> simp [crossVal, hs, side_zero] <;> ring
    · rw [if_neg h1]
      by_cases h2 : f [1, 0] < A
      · refine ⟨-f [1, 0], fun seg => ?_⟩
        rw [if_pos h2]
        by_cases hs : side seg (a + 2) <;> simp [crossVal, hs, side_one] <;> ring
      · rw [if_neg h2]
        have : f [1, 0] = A := le_antisymm (not_lt.mp h1) (not_lt.mp h2)
        exact ⟨-A, fun seg => by simp [this]⟩
  have hB : ∃ c2, ∀ seg, (((if f [1, 0] < f [1, 1] then [(0, b + 2, f [1, 1] - f [1, 0])]
      else if f [1, 1] < f [1, 0] then [(b + 2, 1, f [1, 0] - f [1, 1])] else []) : List (Nat × Nat × V)).map (crossVal seg)).sum =
      (if side seg (b + 2) then f [1, 1] else f [1, 0]) + c2 := by
    by_cases h1 : f [1, 0] < f [1, 1]
    · refine ⟨-f [1, 0], fun seg => ?_⟩
      rw [if_pos h1]
      by_cases hs : side seg (b + 2) <;> simp [crossVal, hs, side_zero] <;> ring
    · rw [if_neg h1]
      by_cases h2 : f [1, 1] < f [1, 0]
      · refine ⟨-f [1, 1], fun seg => ?_⟩
        rw [if_pos h2]
        by_cases hs : side seg (b + 2) <;> simp [crossVal, hs, side_one] <;> ring
      · rw [if_neg h2]
        have : f [1, 1] = f [1, 0] := le_antisymm (not_lt.mp h1) (not_lt.mp h2)
        exact ⟨-f [1, 0], fun seg => by simp [this]⟩
  obtain ⟨c1, hA⟩ := hA
  obtain ⟨c2, hB⟩ := hB
  refine ⟨c1 + c2 + f [1, 0], fun seg => ?_⟩
  rw [List.map_append, List.map_append, List.sum_append, List.sum_append, hA seg, hB seg]
  by_cases ha : side seg (a + 2) <;> by_cases hb : side seg (b + 2) <;>
    simp [crossVal, ha, hb, lab, hA0] <;> ring


theorem unaryRequests_neg [IsStrictOrderedRing V] {acc : Acc} (hacc : acc ≠ .minimizer) (var : Nat) (v0 v1 : V) :
    unaryRequests acc var v0 v1 = unaryRequests .minimizer var (-v0) (-v1) := by
  unfold unaryRequests
  rw [if_neg hacc, if_pos rfl]
  by_cases h : v1 ≤ v0
  · rw [if_pos h, if_pos (neg_le_neg h)]
    congr 3; ring
  · rw [if_neg h, if_neg (fun h' => h (neg_le_neg_iff.mp h'))]
    congr 3; ring

theorem pairRequests_neg [IsStrictOrderedRing V] {acc : Acc} (hacc : acc ≠ .minimizer) (tol : V) (a b : Nat) (A B C D : V) :
    pairRequests tol acc a b A B C D = pairRequests tol .minimizer a b (-A) (-B) (-C) (-D) := by
  unfold pairRequests
  rw [if_neg hacc, if_pos rfl]
  simp only [neg_lt_neg_iff]
  have e1 : -C - -A = -C + A := by ring
  have e2 : -A - -C = -A + C := by ring
  have e3 : -D - -C = -D + C := by ring
  have e4 : -C - -D = -C + D := by ring
  have e5 : -B + -C - -A - -D = -(B + C - A - D) := by ring
  rw [e1, e2, e3, e4, e5]
  have e6 : (-(B + C - A - D) < 0 ∧ -tol ≤ -(B + C - A - D)) ↔ (0 < B + C - A - D ∧ B + C - A - D ≤ tol) := by
    rw [neg_lt_zero, neg_le_neg_iff]
  simp only [e6]
  congr 4
  split <;> simp

theorem unary_valid (acc : Acc) (N var : Nat) (v0 v1 : V) (h : var < N) : ∀ r ∈ unaryRequests acc var v0 v1, ValidReq N r := by
  intro r hr
  unfold unaryRequests at hr
  split at hr <;> split at hr <;> simp at hr <;> subst hr <;> simp [ValidReq] <;> omega

theorem unary_nonneg [IsStrictOrderedRing V] (var : Nat) (v0 v1 : V) : ∀ r ∈ unaryRequests .minimizer var v0 v1, 0 ≤ r.2.2 := by
  intro r hr
  unfold unaryRequests at hr
  rw [if_pos rfl] at hr
  split at hr
  · simp at hr; subst hr; simpa
  · simp at hr; subst hr; simp; linarith

theorem pair_valid (acc : Acc) (tol : V) (N a b : Nat) (A B C D : V) (ha : a < N) (hb : b < N) :
    ∀ r ∈ pairRequests tol acc a b A B C D, ValidReq N r := by
  intro r hr
  unfold pairRequests at hr
  have key : ∀ (l1 l2 : List (Nat × Nat × V)) (x : V), (∀ r ∈ l1, ValidReq N r) → (∀ r ∈ l2, ValidReq N r) →
      r ∈ l1 ++ l2 ++ [(a + 2, b + 2, x)] → ValidReq N r := by
    intro l1 l2 x h1 h2 h
    simp only [List.mem_append, List.mem_singleton] at h
    rcases h with (h | h) | h
    · exact h1 r h
    · exact h2 r h
    · subst h; simp [ValidReq]; omega
  have key2 : ∀ (c d : Prop) [Decidable c] [Decidable d] (x y : V) (v : Nat), v < N →
      ∀ r ∈ (if c then [(0, v + 2, x)] else if d then [(v + 2, 1, y)] else []), ValidReq N r := by
    intro c d _ _ x y v hv r hr
    split at hr
    · simp at hr; subst hr; simp [ValidReq]; omega
    · split at hr
      · simp at hr; subst hr; simp [ValidReq]; omega
      · simp at hr
  split at hr
  · exact key _ _ _ (key2 _ _ _ _ a ha) (key2 _ _ _ _ b hb) hr
  · exact key _ _ _ (key2 _ _ _ _ a ha) (key2 _ _ _ _ b hb) hr

theorem pair_nonneg [IsStrictOrderedRing V] (tol : V) (a b : Nat) (A B C D : V) (h : A + D ≤ B + C) :
    ∀ r ∈ pairRequests tol .minimizer a b A B C D, 0 ≤ r.2.2 := by
  intro r hr
  unfold pairRequests at hr
  rw [if_pos rfl] at hr
  simp only [List.mem_append, List.mem_singleton] at hr
  have key2 : ∀ (x y : V) (v : Nat) (r : Nat × Nat × V),
      r ∈ (if x < y then [(0, v + 2, y - x)] else if y < x then [(v + 2, 1, x - y)] else []) → 0 ≤ r.2.2 := by
    intro x y v r hr
    split at hr
    · simp at hr; subst hr; simp; linarith
    · split at hr
      · simp at hr; subst hr; simp; linarith
      · simp at hr
  rcases hr with (hr | hr) | hr
  · exact key2 _ _ _ r hr
  · exact key2 _ _ _ r hr
  · subst hr
    simp only
    split
    · exact le_refl _
    · linarith

/-- The factor `f` has the values of the term `t` on labels 0 and 1. -/
structure ViewMatches (N : Nat) (f : FactorView V) (t : Term V) : Prop where
  vars : f.vars = t.vars
  range : ∀ v ∈ t.vars, v < N
  order : t.vars.length ≤ 2
  val : ∀ c : List Nat, c.length = t.vars.length → c ≠ [] → (∀ l ∈ c, l < 2) → f.val c = some (t.table c)

/-- The sign with which the energy enters the cut. -/
def sgn (acc : Acc) : V := if acc = .minimizer then 1 else -1

/-- The term of order 2 is representable: its quadratic part has the right sign, or it is too far off to be set to zero. -/
def Representable (acc : Acc) (tol : V) (t : Term V) : Prop :=
  t.vars.length = 2 →
    sgn acc * t.table [0, 0] + sgn acc * t.table [1, 1] ≤ sgn acc * t.table [0, 1] + sgn acc * t.table [1, 0] ∨
    sgn acc * t.table [0, 1] + sgn acc * t.table [1, 0] - sgn acc * t.table [0, 0] - sgn acc * t.table [1, 1] < -tol

/-- The term of order 2 has the right sign. -/
def Good (acc : Acc) (t : Term V) : Prop :=
  t.vars.length = 2 →
    sgn acc * t.table [0, 0] + sgn acc * t.table [1, 1] ≤ sgn acc * t.table [0, 1] + sgn acc * t.table [1, 0]

theorem unaryRequests_sgn [IsStrictOrderedRing V] (acc : Acc) (var : Nat) (v0 v1 : V) :
    unaryRequests acc var v0 v1 = unaryRequests .minimizer var (sgn acc * v0) (sgn acc * v1) := by
  by_cases h : acc = .minimizer
  · subst h; simp [sgn]
  · rw [unaryRequests_neg h]; simp [sgn, h]

theorem pairRequests_sgn [IsStrictOrderedRing V] (acc : Acc) (tol : V) (a b : Nat) (A B C D : V) :
    pairRequests tol acc a b A B C D =
      pairRequests tol .minimizer a b (sgn acc * A) (sgn acc * B) (sgn acc * C) (sgn acc * D) := by
  by_cases h : acc = .minimizer
  · subst h; simp [sgn]
  · rw [pairRequests_neg h]; simp [sgn, h]

theorem addFactor_spec [IsStrictOrderedRing V] (acc : Acc) (g : GC V) (hw : WF g) (f : FactorView V) (t : Term V)
    (hf : ViewMatches g.sEdges.length f t) (hr : Representable acc g.tolerance t) :
    ∃ g', addFactor acc g f = .ok () g' ∧ WF g' ∧ Frame g g' ∧
      (∃ c, ∀ seg, pot g' seg = pot g seg + g.scale * (sgn acc * t.table (t.vars.map (lab seg)) + c)) ∧
      (0 ≤ g.scale → Good acc t → NN g → NN g') := by
  unfold addFactor
  rw [hf.vars]
  have hord := hf.order
  have hval := hf.val
  have hrange := hf.range
  unfold Representable at hr
  unfold Good
  match hv : t.vars with
  | [] =>
    refine ⟨g, rfl, hw, Frame.refl g, ⟨-(sgn acc * t.table []), fun seg => ?_⟩, fun _ _ h => h⟩
    simp
  | [v] =>
    rw [hv] at hval hrange
    simp only
    rw [hval [0] rfl (by simp) (by simp), hval [1] rfl (by simp) (by simp)]
    simp only
    obtain ⟨g', e, w', fr, p, n⟩ := request_spec (unaryRequests acc v (t.table [0]) (t.table [1])) g hw
      (unary_valid acc _ v _ _ (hrange v (by simp)))
    refine ⟨g', by rw [requested, e], w', fr, ?_, ?_⟩
    · rw [unaryRequests_sgn] at p
      obtain ⟨c, hc⟩ := unary_sum v (fun l => sgn acc * t.table l)
      refine ⟨c, fun seg => ?_⟩
      rw [p seg, hc seg]
      simp
    · intro hs _ hn
      refine n hs ?_ hn
      rw [unaryRequests_sgn]
      exact unary_nonneg _ _ _
  | [a, b] =>
    rw [hv] at hval hrange
    have hr' := hr (by rw [hv]; rfl)
    simp only
    rw [hval [0, 0] rfl (by simp) (by simp), hval [0, 1] rfl (by simp) (by simp), hval [1, 0] rfl (by simp) (by simp),
      hval [1, 1] rfl (by simp) (by simp)]
    simp only
    obtain ⟨g', e, w', fr, p, n⟩ := request_spec
      (pairRequests g.tolerance acc a b (t.table [0, 0]) (t.table [0, 1]) (t.table [1, 0]) (t.table [1, 1])) g hw
      (pair_valid acc _ _ a b _ _ _ _ (hrange a (by simp)) (hrange b (by simp)))
    refine ⟨g', by rw [requested, e], w', fr, ?_, ?_⟩
    · rw [pairRequests_sgn] at p
      obtain ⟨c, hc⟩ := pair_sum g.tolerance a b (fun l => sgn acc * t.table l) hr'
      refine ⟨c, fun seg => ?_⟩
      rw [p seg, hc seg]
      simp
    · intro hs hg hn
      refine n hs ?_ hn
      rw [pairRequests_sgn]
      exact pair_nonneg _ _ _ _ _ _ _ (hg rfl)
  | a :: b :: c :: l => rw [hv] at hord; simp at hord

theorem addFactors_spec [IsStrictOrderedRing V] (acc : Acc) {fs : List (FactorView V)} {ts : List (Term V)} (N : Nat)
    (hf : List.Forall₂ (ViewMatches N) fs ts) : ∀ (g : GC V), WF g → g.sEdges.length = N →
    (∀ t ∈ ts, Representable acc g.tolerance t) →
    ∃ g', addFactors acc g fs = .ok () g' ∧ WF g' ∧ Frame g g' ∧
      (∃ c, ∀ seg, pot g' seg = pot g seg +
        g.scale * (sgn acc * (ts.map (fun t => t.table (t.vars.map (lab seg)))).sum + c)) ∧
      (0 ≤ g.scale → (∀ t ∈ ts, Good acc t) → NN g → NN g') := by
  induction hf with
  | nil =>
    intro g hw _ _
    exact ⟨g, rfl, hw, Frame.refl g, ⟨0, by simp⟩, fun _ _ h => h⟩
  | cons h hs ih =>
    rename_i f t fs ts
    intro g hw hN hr
    obtain ⟨g1, e1, w1, f1, ⟨c1, p1⟩, n1⟩ := addFactor_spec acc g hw f t (by rw [hN]; exact h) (hr t (by simp))
    obtain ⟨g2, e2, w2, f2, ⟨c2, p2⟩, n2⟩ := ih g1 w1 (by rw [f1.slen, hN])
      (by intro t' ht'; rw [f1.tolerance]; exact hr t' (by simp [ht']))
    refine ⟨g2, ?_, w2, f1.trans f2, ⟨c1 + c2, fun seg => ?_⟩, ?_⟩
    · simp only [addFactors, e1, e2]
    · rw [p2, p1, f1.scale]
      simp only [List.map_cons, List.sum_cons]
      ring
    · intro hsc hg hn
      exact n2 (by rw [f1.scale]; exact hsc) (fun t' ht' => hg t' (by simp [ht'])) (n1 hsc (hg t (by simp)) hn)

theorem start_wf (n m : Nat) (scale tol : V) : WF (start n m scale tol) where
  nodes := by simp [start]; omega
  tlen := by simp [start]
  ends := by simp [start]

theorem start_nn (n m : Nat) (scale tol : V) : NN (start n m scale tol) where
  edges := by simp [start]
  s := by intro c hc; simp [start] at hc; simp [hc.2]
  t := by intro c hc; simp [start] at hc; simp [hc.2]

theorem start_pot (n m : Nat) (scale tol : V) (seg : List Bool) : pot (start n m scale tol) seg = 0 := by
  simp only [pot, start, Network.cutValue, terminal]
  simp only [List.map_nil, List.sum_nil, zero_add]
  apply Finset.sum_eq_zero
  intro i hi
  have : i < n + m := by simpa using hi
  simp [this]

theorem terminalEdges_spec (s t : List V) (hlen : t.length = s.length) : ∀ (k i : Nat) (n : Network V),
    i + k = s.length → n.numNodes = 2 + s.length →
    ∃ n', terminalEdges s t (List.range' i k) n = some n' ∧ n'.numNodes = n.numNodes ∧
      (∀ seg, n'.cutValue seg = n.cutValue seg + ∑ j ∈ Finset.range k, if side seg (i + j + 2) then s.getD (i + j) 0 else t.getD (i + j) 0) ∧
      (∀ e ∈ n'.edges, e ∈ n.edges ∨ ((e.cap ∈ s ∨ e.cap ∈ t) ∧ e.from_ < n.numNodes ∧ e.to_ < n.numNodes)) := by
  intro k
  induction k with
  | zero =>
    intro i n _ _
    exact ⟨n, rfl, rfl, by simp, fun e he => Or.inl he⟩
  | succ k ih =>
    intro i n h1 h2
    have hi : i < s.length := by omega
    have hi' : i < t.length := by omega
    obtain ⟨n', e1, e2, e3, e4⟩ := ih (i + 1) ⟨n.numNodes, (n.edges ++ [⟨0, i + 2, s[i]⟩]) ++ [⟨i + 2, 1, t[i]⟩]⟩ (by omega) h2
    refine ⟨n', ?_, e2, ?_, ?_⟩
    · rw [List.range'_succ]
      simp only [terminalEdges, List.getElem?_eq_getElem hi, List.getElem?_eq_getElem hi', solverAddEdge]
      rw [if_pos (by simp only [h2]; omega)]
      simp only
      rw [if_pos (by simp only [h2]; omega)]
      exact e1
    · intro seg
      rw [e3 seg, Finset.sum_range_succ']
      simp only [Network.cutValue, List.map_append, List.sum_append, List.map_cons, List.map_nil, List.sum_cons,
        List.sum_nil, Edge.crosses, side_zero, side_one]
      have hc : ∀ j, i + 1 + j = i + (j + 1) := fun j => by omega
      simp only [hc]
      by_cases hs : side seg (i + 2)
      · simp [hs, hi]; ring
      · simp [hs, hi']; ring
    · intro e he
      rcases e4 e he with h | h
      · simp only [List.mem_append, List.mem_singleton] at h
        rcases h with (h | h) | h
        · exact Or.inl h
        · subst h; right; refine ⟨Or.inl (by simp), ?_, ?_⟩ <;> simp only <;> omega
        · subst h; right; refine ⟨Or.inr (by simp), ?_, ?_⟩ <;> simp only <;> omega
      · exact Or.inr h

theorem infer_spec (solver : Network V → List Bool → List Bool) (g : GC V) (hw : WF g) :
    ∃ n, infer solver g = some { g with network := n, state := solver n g.state, inferenceDone := true } ∧
      n.numNodes = 2 + g.sEdges.length ∧ (∀ seg, n.cutValue seg = pot g seg) ∧ (NN g → n.Proper) := by
  obtain ⟨n, e1, e2, e3, e4⟩ := terminalEdges_spec g.sEdges g.tEdges hw.tlen g.sEdges.length 0 g.network (by omega) hw.nodes
  refine ⟨n, ?_, by rw [e2, hw.nodes], ?_, ?_⟩
  · unfold infer
    rw [List.range_eq_range', e1]
  · intro seg
    rw [e3 seg]
    simp [pot, terminal]
  · intro hn e he
    rw [e2]
    rcases e4 e he with h | ⟨h, h'⟩
    · exact ⟨hn.edges e h, hw.ends e h⟩
    · refine ⟨?_, h'⟩
      rcases h with h | h
      · exact hn.s _ h
      · exact hn.t _ h

theorem readState_spec (state : List Bool) : ∀ (js : List Nat), (∀ j ∈ js, j + 2 < state.length) →
    readState state js = some (js.map (lab state)) := by
  intro js
  induction js with
  | nil => intro _; rfl
  | cons j js ih =>
    intro h
    have hj : j + 2 < state.length := h j (by simp)
    rw [readState, ih (fun j' h' => h j' (by simp [h'])), List.getElem?_eq_getElem hj]
    simp only [List.map_cons, lab, side]
    simp [List.getElem?_eq_getElem hj]

theorem lab_segOf (x : List Nat) (hx : ∀ l ∈ x, l < 2) (v : Nat) : lab (segOf x) v = x.getD v 0 := by
  unfold lab side segOf
  simp only [show v + 2 ≠ 0 by omega, show v + 2 ≠ 1 by omega, if_false]
  by_cases h : v < x.length
  · have := hx x[v] (List.getElem_mem h)
    simp only [List.getElem?_cons_succ, List.getElem?_map, List.getElem?_eq_getElem h]
    simp only [List.getD_eq_getElem?_getD, List.getElem?_eq_getElem h, Option.getD_some, Option.map_some]
    by_cases h1 : x[v] = 1
    · simp [h1]
    · simp [h1]; omega
  · simp [h]

end GraphCut
end OpenGM
