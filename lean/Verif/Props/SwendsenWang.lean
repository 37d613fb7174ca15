import Verif.Lemmas.SwendsenWang
import Verif.Props.Gibbs
/-
C76: Swendsen-Wang sampling. The random numbers are arbitrary (those for the edges are not negative).
-/
namespace OpenGM
open Spec SwendsenWang
variable {V F : Type} [Field F] [LinearOrder F]

/-- The objects that a user can reach: constructor, reset and infer, with any random numbers. The flag says whether the object was constructed without initial state, or reset. -/
inductive SWReachable (q : Ops V F) (gm : GM V) (p : Problem V) : Bool → Obj V F → Prop
  | construct {parameter : Parameter F} {g : Obj V F} (hs : parameter.initialState = [] ∨ p.Labeling parameter.initialState) (hl : 0 < parameter.lowestAllowedProbability)
      (h : SwendsenWang.construct q gm parameter = .ok g ()) : SWReachable q gm p (decide (parameter.initialState = [])) g
  | reset {b : Bool} {g g' : Obj V F} (hg : SWReachable q gm p b g) (h : SwendsenWang.reset q g = .ok () g') : SWReachable q gm p true g'
  | infer {b : Bool} {g g' : Obj V F} {draw : Nat → Draw F} {seen : List Seen} (hg : SWReachable q gm p b g) (hd : ∀ i v w, 0 ≤ (draw i).edge v w) (h : SwendsenWang.infer q draw g = some (g', seen)) : SWReachable q gm p b g'

/-- What is assumed: the model was built, it has variables, all of them have labels, the operation has an inverse (or is Multiplier), the values of ACC are totally ordered, and the probability of each labeling is not 0. -/
structure SWSetting (q : Ops V F) (gm : GM V) (p : Problem V) : Prop where
  built : BuiltModel gm p
  nonempty : p.numLabels ≠ []
  labels : ∀ n ∈ p.numLabels, 0 < n
  laws : q.multiplier = true ∨ q.o.Laws
  order : StrictOrder q.bop
  total : ∀ a b, q.bop a b = false → q.bop b a = false → a = b
  positive : ∀ y, p.Labeling y → 0 < q.convert (p.energy q.o.toOperation y)

section
variable {q : Ops V F} {gm : GM V} {p : Problem V}

theorem zero_labeling (hpos : ∀ n ∈ p.numLabels, 0 < n) : p.Labeling (List.replicate p.numLabels.length 0) := by
  refine ⟨by simp, ?_⟩
  intro v l n h1 h2
  rw [List.getElem?_replicate] at h1
  split at h1
  · cases h1; exact hpos n (List.mem_of_getElem? h2)
  · cases h1

variable [IsStrictOrderedRing F]

theorem sw_construct (hS : SWSetting q gm p) {parameter : Parameter F} (hs : parameter.initialState = [] ∨ p.Labeling parameter.initialState) :
    (AllGood q parameter.lowestAllowedProbability p ∧ ∃ g x, SwendsenWang.construct q gm parameter = .ok g () ∧ SwendsenWang.Inv q gm p g x ∧ g.parameter = parameter ∧ g.currentBestState = List.replicate p.numLabels.length 0 ∧
      g.currentBestValue = p.energy q.o.toOperation x ∧ (x = if parameter.initialState = [] then List.replicate p.numLabels.length 0 else parameter.initialState)) ∨
    (¬ AllGood q parameter.lowestAllowedProbability p ∧ SwendsenWang.construct q gm parameter = .throw ()) := by
  have hR := hS.built.represents
  have hst := hR.toStores
  have hn : gm.numberOfVariables = p.numLabels.length := by rw [GM.numberOfVariables, hst.labels]
  have hlen0 : 0 < p.numLabels.length := List.length_pos_iff.mpr hS.nonempty
  obtain ⟨m, x, e, ht, hx⟩ : ∃ m x, (if parameter.initialState.length = gm.numberOfVariables then Movemaker.ofLabels q.o gm parameter.initialState else Movemaker.ofModel q.o gm) = some m ∧ Movemaker.Tracks q.o m p x ∧
      (x = if parameter.initialState = [] then List.replicate p.numLabels.length 0 else parameter.initialState) := by
    by_cases h0 : parameter.initialState = []
    · obtain ⟨m, e, ht, _⟩ := Movemaker.ofModel_spec q.o hS.labels hst
      exact ⟨m, _, by rw [if_neg (by rw [h0, hn]; simp only [List.length_nil]; omega)]; exact e, ht, by rw [if_pos h0]⟩
    · obtain ⟨m, e, ht, _⟩ := Movemaker.ofLabels_spec q.o hst _ (hs.resolve_left h0)
      exact ⟨m, _, by rw [if_pos (by rw [hn]; exact (hs.resolve_left h0).1)]; exact e, ht, by rw [if_neg h0]⟩
  have hno : ¬ (parameter.initialState.length ≠ 0 ∧ parameter.initialState.length ≠ gm.numberOfVariables) := by
    rintro ⟨h1, h2⟩
    rcases hs with h | h
    · exact h1 (by rw [h]; rfl)
    · exact h2 (by rw [hn]; exact h.1)
  obtain ⟨adj, a1, a2⟩ := adj_spec hR
  unfold SwendsenWang.construct
  rw [e]
  simp only
  rw [if_neg hno, a1]
  simp only
  have hgood : AllGood q parameter.lowestAllowedProbability p ↔ ∀ v j w, (v, j) ∈ edges adj → entry adj v j = some w → p.numLabels[v]? = p.numLabels[w]? → Good q parameter.lowestAllowedProbability p v w := by
    constructor
    · intro h v j w _ h2 h3; exact h v w (entry_adjacent a2 h2) h3
    · intro h v w h1 h2
      obtain ⟨j, hj⟩ := adjacent_entry a2 h1
      exact h v j w (mem_edges.mpr ⟨w, hj⟩) hj h2
  rcases compute_spec hR hS.labels q parameter.lowestAllowedProbability a2 (edges adj) _ (fun e he => mem_edges.mp he) (tab_init q) with ⟨c1, t, c2, c3⟩ | ⟨⟨v, j, w, d1, d2, d3, d4⟩, t, c2⟩
  · left
    rw [c2]
    exact ⟨hgood.mpr c1, _, x, rfl, ⟨rfl, ht, a2, c3, hgood.mpr c1, by rw [hn]; exact zero_labeling hS.labels⟩, rfl, by rw [hn], ht.energy, hx⟩
  · right
    rw [c2]
    exact ⟨fun h => d4 (hgood.mp h v j w d1 d2 d3), rfl⟩

theorem sw_reset (hS : SWSetting q gm p) {g : Obj V F} {x : List Nat} (h : SwendsenWang.Inv q gm p g x) (hs : g.parameter.initialState = [] ∨ p.Labeling g.parameter.initialState) :
    ∃ g' z, SwendsenWang.reset q g = .ok () g' ∧ SwendsenWang.Inv q gm p g' z ∧ g'.parameter = g.parameter ∧ g'.currentBestState = z ∧ g'.currentBestValue = p.energy q.o.toOperation z ∧
      (z = if g.parameter.initialState = [] then List.replicate p.numLabels.length 0 else g.parameter.initialState) := by
  have hR := hS.built.represents
  have hn : g.gm.numberOfVariables = p.numLabels.length := by rw [h.model, GM.numberOfVariables, hR.labels]
  have hlen0 : 0 < p.numLabels.length := List.length_pos_iff.mpr hS.nonempty
  have hcomp : ∃ t, computeEdgeProbabilities q g.parameter.lowestAllowedProbability g.gm g.variableAdjacency (edges g.variableAdjacency) g.edgeProbabilities = .ok () t ∧ Tab q p g.variableAdjacency [] t := by
    rw [h.model]
    rcases compute_spec hR hS.labels q g.parameter.lowestAllowedProbability h.adj (edges g.variableAdjacency) g.edgeProbabilities (fun e he => mem_edges.mp he)
      ⟨h.tab.some, fun v j w hw _ => h.tab.value v j w hw (Or.inr (by simp))⟩ with ⟨_, c⟩ | ⟨⟨v, j, w, d1, d2, d3, d4⟩, _⟩
    · exact c
    · exact absurd (h.good v w (entry_adjacent h.adj d2) d3) d4
  obtain ⟨t, t1, t2⟩ := hcomp
  unfold SwendsenWang.reset
  by_cases h0 : g.parameter.initialState = []
  · obtain ⟨m', e', ht', _⟩ := Movemaker.reset_spec hS.labels h.tracks
    rw [if_neg (by rw [h0, hn]; simp only [List.length_nil]; omega), if_neg (by rw [h0]; simp), e']
    simp only [Option.map_some]
    rw [t1]
    refine ⟨_, _, rfl, ⟨h.model, ht', h.adj, t2, h.good, ?_⟩, rfl, ?_, ht'.energy, by rw [if_pos h0]⟩
    · simp only; rw [h.best.1]; exact zero_labeling hS.labels
    · simp only; rw [h.best.1]
  · have hy := hs.resolve_left h0
    obtain ⟨m', e', ht', _⟩ := Movemaker.initializeFrom_spec h.tracks _ hy
    rw [if_pos (by rw [hn]; exact hy.1), e']
    simp only [Option.map_some]
    rw [t1]
    exact ⟨_, _, rfl, ⟨h.model, ht', h.adj, t2, h.good, hy⟩, rfl, rfl, ht'.energy, by rw [if_neg h0]⟩

theorem sw_infer (hS : SWSetting q gm p) {g : Obj V F} {x : List Nat} (h : SwendsenWang.Inv q gm p g x) (hl : 0 < g.parameter.lowestAllowedProbability) {draw : Nat → Draw F} (hd : ∀ i v w, 0 ≤ (draw i).edge v w) :
    ∃ g' seen x', SwendsenWang.infer q draw g = some (g', seen) ∧ SwendsenWang.Inv q gm p g' x' ∧ g'.parameter = g.parameter ∧ seen.length = g.parameter.numberOfBurnInSteps + g.parameter.maxNumberOfSamplingSteps ∧
      (∀ k s, seen[k]? = some s → ∃ y, (x :: seen.map (·.state))[k]? = some y ∧
        p.Pass q.o.toOperation q.convert (decide (k < g.parameter.numberOfBurnInSteps)) (draw k).edge (draw k).acceptance y s.clusterSize s.accepted s.burningIn s.state) ∧
      (x :: seen.map (·.state))[g.parameter.numberOfBurnInSteps + g.parameter.maxNumberOfSamplingSteps]? = some x' ∧
      q.bop g.currentBestValue g'.currentBestValue = false ∧
      (∀ s ∈ seen, s.accepted = true → s.burningIn = false → q.bop (p.energy q.o.toOperation s.state) g'.currentBestValue = false) ∧
      ((g'.currentBestState, g'.currentBestValue) = (g.currentBestState, g.currentBestValue) ∨
        ∃ s ∈ seen, s.accepted = true ∧ s.burningIn = false ∧ (g'.currentBestState, g'.currentBestValue) = (s.state, p.energy q.o.toOperation s.state)) := by
  have hn : g.gm.numberOfVariables = p.numLabels.length := by rw [h.model, GM.numberOfVariables, hS.built.represents.labels]
  unfold SwendsenWang.infer
  rw [hn]
  have := SwendsenWang.loop_spec hS.built.represents hS.nonempty hS.labels hS.laws (fun y hy => ne_of_gt (hS.positive y hy)) hS.order hS.total draw hd (g.parameter.numberOfBurnInSteps + g.parameter.maxNumberOfSamplingSteps) 0 g x h hl
  simpa only [Nat.zero_add] using this

/-- What holds for all reachable objects. -/
theorem sw_inv (hS : SWSetting q gm p) {b : Bool} {g : Obj V F} (h : SWReachable q gm p b g) :
    ∃ x, SwendsenWang.Inv q gm p g x ∧ 0 < g.parameter.lowestAllowedProbability ∧ (g.parameter.initialState = [] ∨ p.Labeling g.parameter.initialState) ∧ (b = true → g.currentBestValue = p.energy q.o.toOperation g.currentBestState) := by
  induction h with
  | construct hs hl h =>
    rcases sw_construct hS hs with ⟨_, g', x, e1, e2, e3, e4, e5, e6⟩ | ⟨_, e1⟩
    · rw [h] at e1; cases e1
      refine ⟨x, e2, by rw [e3]; exact hl, by rw [e3]; exact hs, ?_⟩
      intro hb
      rw [e5, e4, e6, if_pos (by simpa using hb)]
    · rw [h] at e1; cases e1
  | reset hg h ih =>
    obtain ⟨x, i1, i2, i3, _⟩ := ih
    obtain ⟨g', z, e1, e2, e3, e4, e5, _⟩ := sw_reset hS i1 i3
    rw [h] at e1; cases e1
    exact ⟨z, e2, by rw [e3]; exact i2, by rw [e3]; exact i3, fun _ => by rw [e5, e4]⟩
  | infer hg hd h ih =>
    obtain ⟨x, i1, i2, i3, i4⟩ := ih
    obtain ⟨g', seen, x', e1, e2, e3, _, _, _, _, _, e9⟩ := sw_infer hS i1 i2 hd
    rw [h] at e1; cases e1
    refine ⟨x', e2, by rw [e3]; exact i2, by rw [e3]; exact i3, ?_⟩
    intro hb
    rcases e9 with e9 | ⟨s, _, _, _, e9⟩
    · have h1 := congrArg Prod.fst e9
      have h2 := congrArg Prod.snd e9
      simp only at h1 h2
      rw [h1, h2]; exact i4 hb
    · have h1 := congrArg Prod.fst e9
      have h2 := congrArg Prod.snd e9
      simp only at h1 h2
      rw [h1, h2]

/-- C76: without an initial state or with a labeling, the constructor throws if for two adjacent variables with equal numbers of labels the probability of equal labels or that of different labels is smaller than
`lowestAllowedProbability` (or both sums are 0 together), and otherwise it succeeds. For reachable objects, reset and infer never fail, with any random numbers. -/
theorem C76_total (hS : SWSetting q gm p) :
    (∀ parameter : Parameter F, parameter.initialState = [] ∨ p.Labeling parameter.initialState →
      let P := p.edgeProbability q.o.toOperation q.convert
      ((∀ v w, p.adjacent v w = true → p.numLabels[v]? = p.numLabels[w]? →
          p.nearSum q.o.toOperation q.convert v w (fun a b => decide (a = b)) + p.nearSum q.o.toOperation q.convert v w (fun a b => decide (a ≠ b)) ≠ 0 ∧ parameter.lowestAllowedProbability ≤ P v w ∧ parameter.lowestAllowedProbability ≤ 1 - P v w) →
        ∃ g, SwendsenWang.construct q gm parameter = .ok g ()) ∧
      (¬ (∀ v w, p.adjacent v w = true → p.numLabels[v]? = p.numLabels[w]? →
          p.nearSum q.o.toOperation q.convert v w (fun a b => decide (a = b)) + p.nearSum q.o.toOperation q.convert v w (fun a b => decide (a ≠ b)) ≠ 0 ∧ parameter.lowestAllowedProbability ≤ P v w ∧ parameter.lowestAllowedProbability ≤ 1 - P v w) →
        SwendsenWang.construct q gm parameter = .throw ())) ∧
    (∀ b g, SWReachable q gm p b g → (∃ g', SwendsenWang.reset q g = .ok () g') ∧ ∀ draw, (∀ i v w, 0 ≤ (draw i).edge v w) → ∃ g' seen, SwendsenWang.infer q draw g = some (g', seen)) := by
  constructor
  · intro parameter hs
    rcases sw_construct hS hs with ⟨e0, g, x, e1, _⟩ | ⟨e0, e1⟩
    · exact ⟨fun _ => ⟨g, e1⟩, fun h => absurd e0 h⟩
    · exact ⟨fun h => absurd h e0, fun _ => e1⟩
  · intro b g h
    obtain ⟨x, i1, i2, i3, _⟩ := sw_inv hS h
    obtain ⟨g', _, e1, _⟩ := sw_reset hS i1 i3
    refine ⟨⟨g', e1⟩, ?_⟩
    intro draw hd
    obtain ⟨g', seen, _, e1, _⟩ := sw_infer hS i1 i2 hd
    exact ⟨g', seen, e1⟩

/-- C76: in every reachable object, the Markov state is a labeling, `currentValue` is its value, and `arg` is a labeling. The Markov state starts with the initial state, or with the labels 0, also after reset. -/
theorem C76_valid (hS : SWSetting q gm p) {b : Bool} {g : Obj V F} (h : SWReachable q gm p b g) :
    p.Labeling g.movemaker.state ∧ g.movemaker.value = p.energy q.o.toOperation g.movemaker.state ∧ p.Labeling (SwendsenWang.arg g) ∧
    ∀ g', SwendsenWang.reset q g = .ok () g' → g'.movemaker.state = (if g.parameter.initialState = [] then List.replicate p.numLabels.length 0 else g.parameter.initialState) ∧ SwendsenWang.arg g' = g'.movemaker.state := by
  obtain ⟨x, i1, _, i3, _⟩ := sw_inv hS h
  refine ⟨by rw [i1.tracks.state]; exact i1.tracks.labeling, by rw [i1.tracks.state]; exact i1.tracks.energy, i1.best, ?_⟩
  intro g' hg'
  obtain ⟨g2, z, e1, e2, _, e4, _, e6⟩ := sw_reset hS i1 i3
  rw [hg'] at e1; cases e1
  exact ⟨by rw [e2.tracks.state]; exact e6, by rw [e2.tracks.state]; exact e4⟩

/-- C76: what the passes of infer do. There is one report for each pass, first those in the burn-in phase. In each pass, starting at the state of the report before (or the Markov state before infer), the new state is
obtained by relabelling one cluster with one label, if this is accepted; see `Problem.Pass`. -/
theorem C76_passes (hS : SWSetting q gm p) {b : Bool} {g g' : Obj V F} (h : SWReachable q gm p b g) {draw : Nat → Draw F} (hd : ∀ i v w, 0 ≤ (draw i).edge v w) {seen : List Seen} (hi : SwendsenWang.infer q draw g = some (g', seen)) :
    seen.length = g.parameter.numberOfBurnInSteps + g.parameter.maxNumberOfSamplingSteps ∧
    (∀ k s, seen[k]? = some s → ∃ y, (g.movemaker.state :: seen.map (·.state))[k]? = some y ∧
      p.Pass q.o.toOperation q.convert (decide (k < g.parameter.numberOfBurnInSteps)) (draw k).edge (draw k).acceptance y s.clusterSize s.accepted s.burningIn s.state) ∧
    (g.movemaker.state :: seen.map (·.state))[seen.length]? = some g'.movemaker.state := by
  obtain ⟨x, i1, i2, _, _⟩ := sw_inv hS h
  obtain ⟨g2, seen2, x', e1, e2, _, e4, e5, e6, _⟩ := sw_infer hS i1 i2 hd
  rw [hi] at e1; cases e1
  rw [i1.tracks.state, e2.tracks.state, e4]
  exact ⟨rfl, e5, e6⟩

/-- C76: the choice of the cluster and of the label. For the random numbers `u` of the edges there is a list with exactly one variable of each cluster, so that the random numbers `c` and `l` choose the cluster of the
variable at position `c` (modulo the length of the list), and the label `l` (modulo the number of labels): each cluster and each label is chosen equally often. -/
theorem C76_uniform (hS : SWSetting q gm p) {b : Bool} {g : Obj V F} (h : SWReachable q gm p b g) {u : Nat → Nat → F} (hu : ∀ v w, 0 ≤ u v w) :
    ∃ reps : List Nat, reps.Nodup ∧ (∀ r ∈ reps, r < p.numLabels.length) ∧
      (∀ v, v < p.numLabels.length → ∃! r, r ∈ reps ∧ Relation.EqvGen (p.turnedOn q.o.toOperation q.convert g.movemaker.state u) r v) ∧
      ∀ burning c l acceptance, ∃ g' seen r n, step q burning ⟨u, c, l, acceptance⟩ (List.replicate p.numLabels.length false) g = some (g', List.replicate p.numLabels.length false, seen) ∧ g'.movemaker.state = seen.state ∧
        reps[c % reps.length]? = some r ∧ p.numLabels[r]? = some n ∧
        (seen.accepted = true → ∀ v, v < p.numLabels.length → Relation.EqvGen (p.turnedOn q.o.toOperation q.convert g.movemaker.state u) r v → seen.state[v]? = some (l % n)) ∧
        (∀ v, ¬ (seen.accepted = true ∧ Relation.EqvGen (p.turnedOn q.o.toOperation q.convert g.movemaker.state u) r v) → seen.state[v]? = g.movemaker.state[v]?) := by
  obtain ⟨x, i1, i2, _, _⟩ := sw_inv hS h
  have hx := i1.tracks.labeling
  rw [i1.tracks.state]
  obtain ⟨P, sm, rep, c1, c2, c3, c4⟩ := cluster_spec q i1.adj i1.tab (by rw [i1.tracks.state]; exact hx) ⟨u, 0, 0, 0⟩
  rw [i1.tracks.state] at c4
  simp only at c4
  have hPn : P.numberOfElements = p.numLabels.length := by rw [c2.size, c3]
  have hreps := Partition.representatives_eq c2.toInv
  have e : (fun a b => (a, b) ∈ sm.pairs) = p.turnedOn q.o.toOperation q.convert x u := by
    funext a b; exact propext (c4 a b)
  have hequiv : ∀ a b, a < p.numLabels.length → b < p.numLabels.length → (rep a = rep b ↔ Relation.EqvGen (p.turnedOn q.o.toOperation q.convert x u) a b) := by
    intro a b ha hb
    have := c2.equiv a b (by rw [c3]; exact ha) (by rw [c3]; exact hb)
    unfold Merged.Equiv at this
    rw [e] at this
    exact this
  have hmem : ∀ r, r ∈ P.representatives ↔ r < p.numLabels.length ∧ rep r = r := by
    intro r; rw [hreps, List.mem_filter, List.mem_range, hPn, decide_eq_true_eq]
  refine ⟨P.representatives, by rw [hreps]; exact List.nodup_range.filter _, fun r hr => ((hmem r).mp hr).1, ?_, ?_⟩
  · intro v hv
    obtain ⟨h1, _⟩ := c2.root v (by rw [hPn]; exact hv)
    rw [hPn] at h1
    have h2 := c2.toTrees.rep_rep (x := v) (by rw [hPn]; exact hv)
    refine ⟨rep v, ⟨(hmem _).mpr ⟨h1, h2⟩, (hequiv _ _ h1 hv).mp h2⟩, ?_⟩
    rintro r ⟨h3, h4⟩
    obtain ⟨h5, h6⟩ := (hmem r).mp h3
    rw [← h6]
    exact (hequiv r v h5 hv).mpr h4
  · intro burning c l acceptance
    obtain ⟨g', seen, C, old, new, z, s1, s2⟩ := SwendsenWang.step_spec hS.built.represents hS.nonempty hS.labels hS.laws (fun y hy => ne_of_gt (hS.positive y hy)) burning ⟨u, c, l, acceptance⟩ hu i1 i2
    obtain ⟨P', r, n, d1, d2, d3, d4, d5⟩ := s2.chosen
    rw [clusterLoop_congr (d := ⟨u, c, l, acceptance⟩) (d' := ⟨u, 0, 0, 0⟩) rfl, c1] at d1
    cases d1
    simp only at d2 d3 d5
    have hlen : P.numberOfSets = P.representatives.length := by rw [c2.sets, hreps]
    rw [hlen] at d2
    refine ⟨g', seen, r, n, s1, s2.inv.tracks.state, d2, d4, ?_, ?_⟩
    · intro ha v hv hE
      rw [s2.state, if_pos ha, s2.move.after v ((d3 v).mpr ⟨hv, hE⟩), d5]
    · intro v hv
      rw [s2.state]
      split
      · rename_i ha
        exact s2.move.outside v (fun hC => hv ⟨ha, ((d3 v).mp hC).2⟩)
      · rfl

/-- C76: detailed balance. Let `C` be a cluster in the state `x`, where exactly the edges of `A` are on, and let `z` be the state with the label `new` on `C`. Then `C` is also a cluster in the state `z` if the same edges
are on, and the probability of the state `x`, times the probability to turn on `A` in the state `x`, times the probability to accept the step to `z`, is the same with `x` and `z` exchanged. (The probability to
accept is the minimum of 1 and the ratio, see `C76_passes`; in both states the cluster and the label are drawn uniformly.) -/
theorem C76_balance (hS : SWSetting q gm p) {b : Bool} {g : Obj V F} (h : SWReachable q gm p b g) {u : Nat → Nat → F} {A : Nat → Nat → Bool} {x z : List Nat} (hx : p.Labeling x) {C : Finset Nat} {old new : Nat} (hne : new ≠ old)
    (hA : ∀ v w, A v w = true ↔ p.turnedOn q.o.toOperation q.convert x u v w) (hm : p.ClusterMove q.o.toOperation q.convert u x C old new z) :
    let P := p.edgeProbability q.o.toOperation q.convert
    let pdf := fun y => q.convert (p.energy q.o.toOperation y)
    (∃ u', (∀ v w, A v w = true ↔ p.turnedOn q.o.toOperation q.convert z u' v w) ∧ p.ClusterMove q.o.toOperation q.convert u' z C new old x) ∧
    pdf x * p.edgeWeight P x A * min 1 (p.ratio P pdf C x z old new) = pdf z * p.edgeWeight P z A * min 1 (p.ratio P pdf C z x new old) := by
  intro P pdf
  obtain ⟨x0, i1, i2, _, _⟩ := sw_inv hS h
  obtain ⟨r, hr, hrC⟩ := hm.cluster
  have hlt : ∀ v w, p.adjacent v w = true → P v w < 1 := fun v w hvw => probability_lt i2 i1.good hvw
  have hrange : ∀ v w, p.adjacent v w = true → v < p.numLabels.length ∧ w < p.numLabels.length := i1.adj.range
  have hclosed : ∀ v w, v < w → p.adjacent v w = true → A v w = true → (v ∈ C ↔ w ∈ C) := by
    intro v w _ hvw hAvw
    have hon := (hA v w).mp hAvw
    rw [hrC, hrC]
    obtain ⟨h1, h2⟩ := hrange v w hvw
    exact ⟨fun h => ⟨h2, .trans _ _ _ h.2 (.rel _ _ hon)⟩, fun h => ⟨h1, .trans _ _ _ h.2 (.symm _ _ (.rel _ _ hon))⟩⟩
  have hflip : Flip p A C x z old new := ⟨hclosed, hm.before, hm.after, hm.outside⟩
  refine ⟨?_, balance P (fun v w => edgeProbability_symm _ _ _ v w) hlt hflip hne pdf (hS.positive x hx) (hS.positive z hm.labeling)⟩
  have hzA : ∀ v w, A v w = true → z[v]? = z[w]? := by
    intro v w hvw
    have hon := (hA v w).mp hvw
    have hc := hclosed v w hon.1 hon.2.1 hvw
    by_cases hv : v ∈ C
    · rw [hm.after v hv, hm.after w (hc.mp hv)]
    · rw [hm.outside v hv, hm.outside w (fun h => hv (hc.mpr h))]; exact hon.2.2.1
  have hon' : ∀ v w, A v w = true ↔ p.turnedOn q.o.toOperation q.convert z (fun v w => if A v w then u v w else P v w) v w := by
    intro v w
    unfold Problem.turnedOn
    constructor
    · intro hvw
      have hon := (hA v w).mp hvw
      exact ⟨hon.1, hon.2.1, hzA v w hvw, by show (if A v w = true then u v w else P v w) < _; rw [if_pos hvw]; exact hon.2.2.2⟩
    · rintro ⟨_, _, _, h4⟩
      by_contra hn
      have h4 : (if A v w = true then u v w else P v w) < P v w := h4
      rw [if_neg hn] at h4
      exact lt_irrefl _ h4
  refine ⟨fun v w => if A v w then u v w else P v w, hon', ⟨r, hr, ?_⟩, hm.after, hm.before, fun v hv => (hm.outside v hv).symm, hx⟩
  have e : p.turnedOn q.o.toOperation q.convert z (fun v w => if A v w then u v w else P v w) = p.turnedOn q.o.toOperation q.convert x u := by
    funext v w
    exact propext ((hon' v w).symm.trans (hA v w))
  rw [e]
  exact hrC

/-- C76 (partial): for an object constructed without initial state, or reset, `arg` has the value `currentBestValue`; after infer, `arg` is the old one or an accepted state after the burn-in phase, and neither the
old one nor any of these states is better. Missing: an initial state at construction and the states in the burn-in phase, see `C76_violated_initial` and `C76_violated_burnin`. -/
theorem C76_best_partial (hS : SWSetting q gm p) {g : Obj V F} (h : SWReachable q gm p true g) :
    g.currentBestValue = p.energy q.o.toOperation (SwendsenWang.arg g) ∧
    ∀ draw g' seen, (∀ i v w, 0 ≤ (draw i).edge v w) → SwendsenWang.infer q draw g = some (g', seen) →
      q.bop (p.energy q.o.toOperation (SwendsenWang.arg g)) (p.energy q.o.toOperation (SwendsenWang.arg g')) = false ∧
      (∀ s ∈ seen, s.accepted = true → s.burningIn = false → q.bop (p.energy q.o.toOperation s.state) (p.energy q.o.toOperation (SwendsenWang.arg g')) = false) ∧
      (SwendsenWang.arg g' = SwendsenWang.arg g ∨ ∃ s ∈ seen, s.accepted = true ∧ s.burningIn = false ∧ SwendsenWang.arg g' = s.state) := by
  obtain ⟨x, i1, i2, _, i4⟩ := sw_inv hS h
  refine ⟨i4 rfl, ?_⟩
  intro draw g' seen hd hi
  obtain ⟨_, _, _, _, j4⟩ := sw_inv hS (.infer h hd hi)
  obtain ⟨g2, seen2, x', e1, _, _, _, _, _, e7, e8, e9⟩ := sw_infer hS i1 i2 hd
  rw [hi] at e1; cases e1
  unfold SwendsenWang.arg
  rw [← i4 rfl, ← j4 rfl]
  refine ⟨e7, e8, ?_⟩
  rcases e9 with e9 | ⟨s, s1, s2, s3, e9⟩
  · exact Or.inl (congrArg Prod.fst e9)
  · exact Or.inr ⟨s, s1, s2, s3, congrArg Prod.fst e9⟩

end

/-! ### Examples and violations -/

/-- Multiplier and Maximizer; the values are the probabilities. -/
def swOps : Ops Rat Rat := ⟨mulDiv Rat, true, fun a b => decide (b < a), 0, id⟩

theorem swSetting {gm : GM Rat} (hb : BuiltModel gm (builtAfter gibbsRatOps).problem) : SWSetting swOps gm (builtAfter gibbsRatOps).problem := by
  refine ⟨hb, by decide, by decide, Or.inl rfl, ⟨fun a => by simp [swOps], fun a b c h1 h2 => ?_⟩, fun a b h1 h2 => ?_, fun x hx => ?_⟩
  · simp only [swOps, decide_eq_true_eq] at *; exact lt_trans h2 h1
  · simp only [swOps, decide_eq_false_iff_not, not_lt] at h1 h2; exact le_antisymm h1 h2
  · have : (builtAfter gibbsRatOps).problem.energy swOps.o.toOperation x = 1 * (if restrict x [0, 1] = [0, 0] ∨ restrict x [0, 1] = [1, 1] then 3 else 1) := rfl
    show 0 < (builtAfter gibbsRatOps).problem.energy swOps.o.toOperation x
    rw [this]
    split <;> norm_num

/-- First pass: no edge is on, the second cluster, label 1. Second pass: the edge is on (if the labels are equal), label 1. -/
def swDraw (i : Nat) : Draw Rat := if i = 0 then ⟨fun _ _ => 1 / 2, 1, 1, 0⟩ else ⟨fun _ _ => 0, 0, 1, 0⟩

theorem swDraw_nonneg : ∀ i v w, 0 ≤ (swDraw i).edge v w := by
  intro i v w
  unfold swDraw
  split <;> simp

instance swReports : DecidableEq (List (Nat × Bool × Bool × List Nat)) := inferInstance
instance swBefore : DecidableEq (List Nat × List Nat × Rat) := inferInstance
instance swAfter : DecidableEq (List (Nat × Bool × Bool × List Nat) × List Nat × Rat) := inferInstance

/-- What an observer sees of the constructor and infer: before, the Markov state, `arg` and `currentBestValue`; the reports; after, `arg` and `currentBestValue`. -/
def swRun (gm : GM Rat) (parameter : Parameter Rat) (draw : Nat → Draw Rat) : Option ((List Nat × List Nat × Rat) × List (Nat × Bool × Bool × List Nat) × List Nat × Rat) :=
  match SwendsenWang.construct swOps gm parameter with
  | .ok g _ => (SwendsenWang.infer swOps draw g).map (fun r =>
    ((g.movemaker.state, SwendsenWang.arg g, g.currentBestValue), r.2.map (fun s => (s.clusterSize, s.accepted, s.burningIn, s.state)), SwendsenWang.arg r.1, r.1.currentBestValue))
  | _ => none

theorem swRun_some {gm : GM Rat} {parameter : Parameter Rat} {draw : Nat → Draw Rat} {x y y' : List Nat} {a a' : Rat} {l : List (Nat × Bool × Bool × List Nat)} (h : swRun gm parameter draw = some ((x, y, a), l, y', a')) :
    ∃ g g' seen, SwendsenWang.construct swOps gm parameter = .ok g () ∧ SwendsenWang.infer swOps draw g = some (g', seen) ∧ g.movemaker.state = x ∧ SwendsenWang.arg g = y ∧ g.currentBestValue = a ∧
      seen.map (fun s => (s.clusterSize, s.accepted, s.burningIn, s.state)) = l ∧ SwendsenWang.arg g' = y' ∧ g'.currentBestValue = a' := by
  unfold swRun at h
  cases hc : SwendsenWang.construct swOps gm parameter with
  | ok g u =>
    rw [hc] at h
    simp only at h
    cases hi : SwendsenWang.infer swOps draw g with
    | none => rw [hi] at h; cases h
    | some r =>
      rw [hi] at h
      cases h
      exact ⟨g, r.1, r.2, rfl, hi, rfl, rfl, rfl, rfl, rfl, rfl⟩
  | throw _ => rw [hc] at h; cases h
  | ub => rw [hc] at h; cases h

/-- The hypotheses of `C76_total`, `C76_valid`, `C76_uniform`, `C76_passes` and `C76_best_partial` are met: from (0,0), variable 1 gets the label 1 in the burn-in phase, and then variable 0. -/
example : ∃ (gm : GM Rat) (g g' : Obj Rat Rat) (seen : List Seen), SWSetting swOps gm (builtAfter gibbsRatOps).problem ∧ SWReachable swOps gm (builtAfter gibbsRatOps).problem true g ∧
    SwendsenWang.infer swOps swDraw g = some (g', seen) ∧ seen.map (fun s => (s.clusterSize, s.accepted, s.burningIn, s.state)) = [(1, true, true, [0, 1]), (1, true, false, [1, 1])] ∧ SwendsenWang.arg g' = [0, 0] := by
  obtain ⟨c, h1⟩ : ∃ c, (Client.init 1).run (fun _ _ => false) gibbsRatOps = .ok () c := ⟨_, rfl⟩
  have hb : BuiltModel c.gm (builtAfter gibbsRatOps).problem := ⟨1, _, gibbsRatOps, c, eqvSound_false, gibbsRatOps_valid, h1, rfl, rfl⟩
  have key : swRun c.gm ⟨1, 1, 1 / 100, []⟩ swDraw = some (([0, 0], [0, 0], 3), [(1, true, true, [0, 1]), (1, true, false, [1, 1])], [0, 0], 3) := by
    clear hb
    cases h1
    decide +kernel
  obtain ⟨g, g', seen, k1, k2, _, _, _, k6, k7, _⟩ := swRun_some key
  exact ⟨c.gm, g, g', seen, swSetting hb, .construct (parameter := ⟨1, 1, 1 / 100, []⟩) (Or.inl rfl) (by norm_num) k1, k2, k6, k7⟩

/-- The hypotheses of `C76_balance` are met: both variables are one cluster in the state (0,0), and get the label 1. -/
example : ∃ (u : Nat → Nat → Rat) (A : Nat → Nat → Bool), (∀ v w, A v w = true ↔ (builtAfter gibbsRatOps).problem.turnedOn swOps.o.toOperation swOps.convert [0, 0] u v w) ∧ A 0 1 = true ∧
    (builtAfter gibbsRatOps).problem.ClusterMove swOps.o.toOperation swOps.convert u [0, 0] {0, 1} 0 1 [1, 1] := by
  have h01 : (builtAfter gibbsRatOps).problem.turnedOn swOps.o.toOperation swOps.convert [0, 0] (fun _ _ => (0 : Rat)) 0 1 := by
    refine ⟨by decide, by decide, by decide, ?_⟩
    decide +kernel
  refine ⟨fun _ _ => 0, fun v w => decide ((builtAfter gibbsRatOps).problem.turnedOn swOps.o.toOperation swOps.convert [0, 0] (fun _ _ => (0 : Rat)) v w), fun v w => by simp only [decide_eq_true_eq], by exact decide_eq_true h01,
    ⟨0, by simp, ?_⟩, ?_, ?_, ?_, ⟨rfl, ?_⟩⟩
  · intro v
    have hl : (builtAfter gibbsRatOps).problem.numLabels.length = 2 := rfl
    rw [hl]
    constructor
    · intro hv
      rcases Finset.mem_insert.mp hv with rfl | hv
      · exact ⟨by decide, .refl _⟩
      · rw [Finset.mem_singleton.mp hv]
        exact ⟨by decide, .rel _ _ h01⟩
    · rintro ⟨hv, _⟩
      match v, hv with
      | 0, _ => simp
      | 1, _ => simp
  · intro v hv
    rcases Finset.mem_insert.mp hv with rfl | hv
    · rfl
    · rw [Finset.mem_singleton.mp hv]; rfl
  · intro v hv
    rcases Finset.mem_insert.mp hv with rfl | hv
    · rfl
    · rw [Finset.mem_singleton.mp hv]; rfl
  · intro v hv
    match v with
    | 0 => simp at hv
    | 1 => simp at hv
    | v + 2 => simp
  · intro v l n h2 h3
    match v with
    | 0 => cases h2; cases h3; decide
    | 1 => cases h2; cases h3; decide
    | v + 2 => simp at h2

/-- The labeling (0,0) has value 1, (1,1) has value 3, the others 2. -/
def swOps2 : List (BuildOp Rat) :=
  [.addVariable 2, .addVariable 2, .addFunction 0 ⟨[2, 2], fun c => if c = [0, 0] then 1 else if c = [1, 1] then 3 else 2⟩, .addFactor 0 [0, 1]]

theorem swOps2_valid : ValidHistory 1 Built.empty swOps2 := by
  simp [swOps2, ValidHistory, BuildOp.Valid, BuildOp.apply, Built.empty, restrict]

/-- C76 (violated): the constructor with an initial state records its value, but the labels 0 as best state. Here the initial state (1,1) is optimal with value 3, and also after infer `arg` is (0,0), which has value 1 and is
the worst labeling, with `currentBestValue` 3. -/
theorem C76_violated_initial : ∃ (gm : GM Rat) (g g' : Obj Rat Rat) (seen : List Seen), BuiltModel gm (builtAfter swOps2).problem ∧ SwendsenWang.construct swOps gm ⟨1, 0, 1 / 100, [1, 1]⟩ = .ok g () ∧
    g.movemaker.state = [1, 1] ∧ SwendsenWang.arg g = [0, 0] ∧ g.currentBestValue = 3 ∧ SwendsenWang.infer swOps swDraw g = some (g', seen) ∧ SwendsenWang.arg g' = [0, 0] ∧ g'.currentBestValue = 3 ∧
    (builtAfter swOps2).problem.energy swOps.o.toOperation [0, 0] = 1 := by
  obtain ⟨c, h1⟩ : ∃ c, (Client.init 1).run (fun _ _ => false) swOps2 = .ok () c := ⟨_, rfl⟩
  have hb : BuiltModel c.gm (builtAfter swOps2).problem := ⟨1, _, swOps2, c, eqvSound_false, swOps2_valid, h1, rfl, rfl⟩
  have key : swRun c.gm ⟨1, 0, 1 / 100, [1, 1]⟩ swDraw = some (([1, 1], [0, 0], 3), [(1, true, false, [1, 1])], [0, 0], 3) := by
    clear hb
    cases h1
    decide +kernel
  obtain ⟨g, g', seen, k1, k2, k3, k4, k5, _, k7, k8⟩ := swRun_some key
  exact ⟨c.gm, g, g', seen, hb, k1, k3, k4, k5, k2, k7, k8, by decide +kernel⟩

/-- First two passes: variable 1, then variable 0 gets the label 1. Third pass: variable 1 gets the label 0. -/
def swDraw2 (i : Nat) : Draw Rat := if i = 0 then ⟨fun _ _ => 3 / 4, 1, 1, 0⟩ else if i = 1 then ⟨fun _ _ => 3 / 4, 0, 1, 0⟩ else ⟨fun _ _ => 3 / 4, 1, 0, 0⟩

/-- C76 (violated): the states in the burn-in phase are not considered. Here the second state in the burn-in phase is (1,1) with value 3, but in the end `arg` is (1,0) with value 2. -/
theorem C76_violated_burnin : ∃ (gm : GM Rat) (g g' : Obj Rat Rat) (seen : List Seen), BuiltModel gm (builtAfter swOps2).problem ∧ SwendsenWang.construct swOps gm ⟨1, 2, 1 / 100, []⟩ = .ok g () ∧
    SwendsenWang.infer swOps swDraw2 g = some (g', seen) ∧ seen.map (fun s => (s.clusterSize, s.accepted, s.burningIn, s.state)) = [(1, true, true, [0, 1]), (1, true, true, [1, 1]), (1, true, false, [1, 0])] ∧
    SwendsenWang.arg g' = [1, 0] ∧ g'.currentBestValue = 2 ∧ (builtAfter swOps2).problem.energy swOps.o.toOperation [1, 1] = 3 := by
  obtain ⟨c, h1⟩ : ∃ c, (Client.init 1).run (fun _ _ => false) swOps2 = .ok () c := ⟨_, rfl⟩
  have hb : BuiltModel c.gm (builtAfter swOps2).problem := ⟨1, _, swOps2, c, eqvSound_false, swOps2_valid, h1, rfl, rfl⟩
  have key : swRun c.gm ⟨1, 2, 1 / 100, []⟩ swDraw2 = some (([0, 0], [0, 0], 1), [(1, true, true, [0, 1]), (1, true, true, [1, 1]), (1, true, false, [1, 0])], [1, 0], 2) := by
    clear hb
    cases h1
    decide +kernel
  obtain ⟨g, g', seen, k1, k2, _, _, _, k6, k7, k8⟩ := swRun_some key
  exact ⟨c.gm, g, g', seen, hb, k1, k2, k6, k7, k8, by decide +kernel⟩

end OpenGM
