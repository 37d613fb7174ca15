import Verif.Lemmas.SwendsenWangCluster
import Verif.Lemmas.SwendsenWangBalance
import Verif.Lemmas.MoveOptimal
/-
Lemmas for Swendsen-Wang sampling: the ratio, one pass, and the loop.
-/
namespace OpenGM.SwendsenWang
open Spec Movemaker
variable {V F : Type} [Field F] [LinearOrder F] {gm : GM V} {p : Problem V}

theorem proposalLoop_spec {q : Nat → F} {g : Obj V F} {rep : Nat → Nat} {r vi n : Nat} : ∀ (es : List (Nat × Nat)) (P : Partition) (x : F), Partition.Inv P rep → P.numberOfElements = n →
    (∀ e ∈ es, e.1 < n ∧ entry g.edgeProbabilities vi e.2 = some (q e.1)) →
    ∃ P', proposalLoop g r vi es P x = some (P', x * (((es.map Prod.fst).filter (fun w => decide (rep w = r))).map (fun w => 1 - q w)).prod) ∧ Partition.Inv P' rep ∧ P'.numberOfElements = n
  | [], P, x, hP, hn, _ => ⟨P, by simp [proposalLoop], hP, hn⟩
  | (w, k) :: es, P, x, hP, hn, he => by
    obtain ⟨h1, h2⟩ := he (w, k) (by simp)
    simp only at h1 h2
    obtain ⟨P1, a1, a2, a3, _⟩ := Partition.find_spec hP (x := w) (by rw [hn]; exact h1)
    have he' : ∀ e ∈ es, e.1 < n ∧ entry g.edgeProbabilities vi e.2 = some (q e.1) := fun e h => he e (by simp [h])
    unfold proposalLoop
    rw [a1]
    simp only
    by_cases hr : rep w = r
    · rw [if_pos hr, h2]
      simp only
      obtain ⟨P', b1, b2, b3⟩ := proposalLoop_spec (q := q) (r := r) (vi := vi) es P1 (x * (1 - q w)) a2 (by rw [a3, hn]) he'
      refine ⟨P', ?_, b2, b3⟩
      rw [b1, List.map_cons, List.filter_cons_of_pos (by simpa using hr), List.map_cons, List.prod_cons, mul_assoc]
    · rw [if_neg hr]
      obtain ⟨P', b1, b2, b3⟩ := proposalLoop_spec (q := q) (r := r) (vi := vi) es P1 x a2 (by rw [a3, hn]) he'
      refine ⟨P', ?_, b2, b3⟩
      rw [b1, List.map_cons, List.filter_cons_of_neg (by simpa using hr)]

/-- The product of `1 - q` over the edges from `v` into `C`. -/
def inner (p : Problem V) (q : Nat → Nat → F) (C : Finset Nat) (v : Nat) : F :=
  ∏ w ∈ (Finset.range p.numLabels.length).filter (fun w => w ∈ C ∧ p.adjacent v w = true), (1 - q v w)

theorem proposalLoop_inner {q : Ops V F} {g : Obj V F} (ha : Adj p g.variableAdjacency) (ht : Tab q p g.variableAdjacency [] g.edgeProbabilities) {rep : Nat → Nat} {r : Nat} {C : Finset Nat}
    (hC : ∀ v, v ∈ C ↔ v < p.numLabels.length ∧ rep v = r) {v : Nat} {ws : List Nat} (hws : g.variableAdjacency[v]? = some ws) (P : Partition) (x : F) (hP : Partition.Inv P rep) (hn : P.numberOfElements = p.numLabels.length) :
    ∃ P', proposalLoop g r v (ws.zip (List.range ws.length)) P x = some (P', x * inner p (p.edgeProbability q.o.toOperation q.convert) C v) ∧ Partition.Inv P' rep ∧ P'.numberOfElements = p.numLabels.length := by
  have hv : v < p.numLabels.length := by rw [← ha.length]; exact (List.getElem?_eq_some_iff.mp hws).1
  obtain ⟨l, l1, l2, l3⟩ := ha.list v hv
  rw [hws] at l1; cases l1
  obtain ⟨P', b1, b2, b3⟩ := proposalLoop_spec (q := p.edgeProbability q.o.toOperation q.convert v) (g := g) (r := r) (vi := v) (ws.zip (List.range ws.length)) P x hP hn (by
    rintro ⟨w, k⟩ he
    obtain ⟨i, hi⟩ := List.mem_iff_getElem?.mp he
    rw [List.getElem?_zip_eq_some] at hi
    obtain ⟨h3, h4⟩ := List.getElem?_eq_some_iff.mp hi.2
    rw [List.getElem_range] at h4
    simp only at h4 hi
    subst h4
    have hw := List.mem_of_getElem? hi.1
    exact ⟨(ha.range v w ((l3 w).mp hw)).2, ht.value v _ w (entry_some.mpr ⟨ws, hws, hi.1⟩) (Or.inr (by simp))⟩)
  refine ⟨P', ?_, b2, b3⟩
  rw [b1, List.map_fst_zip (by simp)]
  have hnd : (ws.filter (fun w => decide (rep w = r))).Nodup := (l2.imp (fun h => Nat.ne_of_lt h)).filter _
  rw [← List.prod_toFinset _ hnd]
  unfold inner
  have hset : (ws.filter (fun w => decide (rep w = r))).toFinset = (Finset.range p.numLabels.length).filter (fun w => w ∈ C ∧ p.adjacent v w = true) := ?_
  · rw [hset]
  ext w
  simp only [List.mem_toFinset, List.mem_filter, decide_eq_true_eq, Finset.mem_filter, Finset.mem_range, hC, l3]
  constructor
  · rintro ⟨h1, h2⟩; exact ⟨(ha.range v w h1).2, ⟨(ha.range v w h1).2, h2⟩, h1⟩
  · rintro ⟨_, ⟨_, h2⟩, h1⟩; exact ⟨h1, h2⟩

theorem proposals_list {q : Ops V F} {g : Obj V F} (ha : Adj p g.variableAdjacency) (ht : Tab q p g.variableAdjacency [] g.edgeProbabilities) {rep : Nat → Nat} {r old new : Nat} {C : Finset Nat}
    (hC : ∀ v, v ∈ C ↔ v < p.numLabels.length ∧ rep v = r) (hx : p.Labeling g.movemaker.state) (hr : g.movemaker.state[r]? = some old) :
    ∀ (vs : List Nat) (P : Partition) (x : F × F), (∀ v ∈ vs, v < p.numLabels.length) → Partition.Inv P rep → P.numberOfElements = p.numLabels.length →
    proposals g r new vs P x = some
      (x.1 * ((vs.filter (fun v => decide (g.movemaker.state[v]? = some old))).map (inner p (p.edgeProbability q.o.toOperation q.convert) C)).prod,
       x.2 * ((vs.filter (fun v => decide (g.movemaker.state[v]? = some new ∧ new ≠ old))).map (inner p (p.edgeProbability q.o.toOperation q.convert) C)).prod)
  | [], P, x, _, _, _ => by simp [proposals]
  | v :: vs, P, x, hvs, hP, hn => by
    have hv := hvs v (by simp)
    have hvs' : ∀ v ∈ vs, v < p.numLabels.length := fun w hw => hvs w (by simp [hw])
    have xv : g.movemaker.state[v]? = some (g.movemaker.state[v]'(by rw [hx.1]; exact hv)) := List.getElem?_eq_getElem _
    have hw : g.variableAdjacency[v]? = some (g.variableAdjacency[v]'(by rw [ha.length]; exact hv)) := List.getElem?_eq_getElem _
    generalize g.movemaker.state[v]'(by rw [hx.1]; exact hv) = l at xv
    generalize g.variableAdjacency[v]'(by rw [ha.length]; exact hv) = ws at hw
    unfold proposals
    rw [xv, hr, hw]
    simp only
    by_cases h1 : l = old
    · subst h1
      rw [if_pos rfl]
      obtain ⟨P', b1, b2, b3⟩ := proposalLoop_inner ha ht hC hw P x.1 hP hn
      rw [b1]
      simp only
      rw [proposals_list ha ht hC hx hr vs P' _ hvs' b2 b3, List.filter_cons_of_pos (by simpa using xv), List.filter_cons_of_neg (by rw [xv]; simp; intro h; exact h.symm),
        List.map_cons, List.prod_cons, mul_assoc]
    · rw [if_neg h1]
      by_cases h2 : l = new
      · subst h2
        rw [if_pos rfl]
        obtain ⟨P', b1, b2, b3⟩ := proposalLoop_inner ha ht hC hw P x.2 hP hn
        rw [b1]
        simp only
        rw [proposals_list ha ht hC hx hr vs P' _ hvs' b2 b3, List.filter_cons_of_neg (by rw [xv]; simpa using h1), List.filter_cons_of_pos (by simpa using ⟨xv, h1⟩),
          List.map_cons, List.prod_cons, mul_assoc]
      · rw [if_neg h2, proposals_list ha ht hC hx hr vs P x hvs' hP hn, List.filter_cons_of_neg (by rw [xv]; simpa using h1), List.filter_cons_of_neg (by rw [xv]; simp [h2])]

theorem boundary_list (q : Nat → Nat → F) {C : Finset Nat} {vs : List Nat} (hnd : vs.Nodup) (hvs : ∀ v, v ∈ vs ↔ v < p.numLabels.length ∧ v ∉ C ∧ ∃ w ∈ C, p.adjacent v w = true) (x : List Nat) (l : Nat) :
    ((vs.filter (fun v => decide (x[v]? = some l))).map (inner p q C)).prod = p.boundary q C x l := by
  rw [← List.prod_toFinset _ (hnd.filter _)]
  unfold Problem.boundary
  apply Finset.prod_subset
  · intro v hv
    simp only [List.mem_toFinset, List.mem_filter, decide_eq_true_eq, hvs] at hv
    simp only [Finset.mem_filter, Finset.mem_range]
    exact ⟨hv.1.1, hv.1.2.1, hv.2⟩
  · intro v hv hn
    simp only [Finset.mem_filter, Finset.mem_range] at hv
    simp only [List.mem_toFinset, List.mem_filter, decide_eq_true_eq, hvs] at hn
    apply Finset.prod_eq_one
    intro w hw
    simp only [Finset.mem_filter, Finset.mem_range] at hw
    exact absurd ⟨⟨hv.1, hv.2.1, w, hw.2.1, hw.2.2⟩, hv.2.2⟩ hn

/-- The state of an object: the Markov state is `x`. -/
structure Inv (q : Ops V F) (gm : GM V) (p : Problem V) (g : Obj V F) (x : List Nat) : Prop where
  model : g.gm = gm
  tracks : Tracks q.o g.movemaker p x
  adj : Adj p g.variableAdjacency
  tab : Tab q p g.variableAdjacency [] g.edgeProbabilities
  good : AllGood q g.parameter.lowestAllowedProbability p
  best : p.Labeling g.currentBestState

/-- What one pass does. -/
structure StepSpec (q : Ops V F) (gm : GM V) (p : Problem V) (burning : Bool) (d : Draw F) (g g' : Obj V F) (x : List Nat) (seen : Seen) (C : Finset Nat) (old new : Nat) (z : List Nat) : Prop where
  move : p.ClusterMove q.o.toOperation q.convert d.edge x C old new z
  size : seen.clusterSize = C.card
  burnIn : seen.burningIn = burning
  accepted : seen.accepted = true ↔ burning = true ∨
    1 ≤ p.ratio (p.edgeProbability q.o.toOperation q.convert) (fun y => q.convert (p.energy q.o.toOperation y)) C x z old new ∨
    d.acceptance ≤ p.ratio (p.edgeProbability q.o.toOperation q.convert) (fun y => q.convert (p.energy q.o.toOperation y)) C x z old new
  state : seen.state = if seen.accepted then z else x
  inv : Inv q gm p g' seen.state
  parameter : g'.parameter = g.parameter
  chosen : ∃ P r n, clusterLoop g d (edges g.variableAdjacency) (Partition.ofSize p.numLabels.length) = some P ∧ P.representatives[d.cluster % P.numberOfSets]? = some r ∧
    (∀ v, v ∈ C ↔ v < p.numLabels.length ∧ Relation.EqvGen (p.turnedOn q.o.toOperation q.convert x d.edge) r v) ∧ p.numLabels[r]? = some n ∧ new = d.label % n
  best : (g'.currentBestState, g'.currentBestValue) =
    if burning = false ∧ seen.accepted = true ∧ q.bop (p.energy q.o.toOperation z) g.currentBestValue = true then (z, p.energy q.o.toOperation z) else (g.currentBestState, g.currentBestValue)

variable {q : Ops V F}

theorem move_spec' (ho : q.multiplier = true ∨ q.o.Laws) {g : Obj V F} {x : List Nat} (h : Inv q gm p g x) (b : Bool) (vars labels : List Nat) (hn : vars.Nodup) (hr : ∀ v ∈ vars, v < p.numLabels.length) (hd : InRange p.numLabels vars labels) :
    ∃ g', move q b vars labels g = some g' ∧ Inv q gm p g' (fill x vars labels) ∧ g'.parameter = g.parameter ∧
      (g'.currentBestState, g'.currentBestValue) = if b = true ∧ q.bop (p.energy q.o.toOperation (fill x vars labels)) g.currentBestValue = true then (fill x vars labels, p.energy q.o.toOperation (fill x vars labels)) else (g.currentBestState, g.currentBestValue) := by
  obtain ⟨m', a1, a2, a3⟩ := Movemaker.move_spec q.multiplier ho h.tracks vars labels hn hr hd
  unfold move
  rw [a1]
  simp only
  have hv : m'.value = p.energy q.o.toOperation (fill x vars labels) := a2.energy
  by_cases hb : b = true ∧ q.bop (p.energy q.o.toOperation (fill x vars labels)) g.currentBestValue = true
  · rw [if_pos (by rw [hv]; simpa using hb), if_pos (by rw [a2.state, a2.labeling.1, h.best.1]), if_pos hb]
    have hs : m'.state ++ g.currentBestState.drop m'.state.length = fill x vars labels := by
      rw [a2.state, List.drop_eq_nil_of_le (by rw [a2.labeling.1, h.best.1]), List.append_nil]
    refine ⟨_, rfl, ⟨h.model, a2, h.adj, h.tab, h.good, ?_⟩, rfl, ?_⟩
    · simp only; rw [hs]; exact a2.labeling
    · simp only; rw [hs, hv]
  · rw [if_neg (by rw [hv]; simpa using hb), if_neg hb]
    exact ⟨_, rfl, ⟨h.model, a2, h.adj, h.tab, h.good, h.best⟩, rfl, rfl⟩

variable [IsStrictOrderedRing F]

theorem probability_lt {lowest : F} (hl : 0 < lowest) (hg : AllGood q lowest p) {v w : Nat} (ha : p.adjacent v w = true) : p.edgeProbability q.o.toOperation q.convert v w < 1 := by
  by_cases he : p.numLabels[v]? = p.numLabels[w]?
  · have := (hg v w ha he).2.2
    linarith
  · rw [edgeProbability_of_ne _ _ _ he]; exact one_pos

theorem boundary_pos {e : Nat → Nat → F} (h : ∀ v w, p.adjacent v w = true → e v w < 1) (C : Finset Nat) (x : List Nat) (l : Nat) : 0 < p.boundary e C x l := by
  unfold Problem.boundary
  apply Finset.prod_pos
  intro v _
  apply Finset.prod_pos
  intro w hw
  have := h v w (Finset.mem_filter.mp hw).2.2
  linarith

theorem step_spec (hb : Represents gm p) (hne : p.numLabels ≠ []) (hpos : ∀ n ∈ p.numLabels, 0 < n) (ho : q.multiplier = true ∨ q.o.Laws) (hc : ∀ y, p.Labeling y → q.convert (p.energy q.o.toOperation y) ≠ 0)
    (burning : Bool) (d : Draw F) (hd : ∀ v w, 0 ≤ d.edge v w) {g : Obj V F} {x : List Nat} (h : Inv q gm p g x) (hl : 0 < g.parameter.lowestAllowedProbability) :
    ∃ g' seen C old new z, step q burning d (List.replicate p.numLabels.length false) g = some (g', List.replicate p.numLabels.length false, seen) ∧ StepSpec q gm p burning d g g' x seen C old new z := by
  have hst := h.tracks.state
  have hx := h.tracks.labeling
  have hn : g.gm.numberOfVariables = p.numLabels.length := by rw [h.model, GM.numberOfVariables, hb.labels]
  obtain ⟨P, sm, rep, c1, c2, c3, c4⟩ := cluster_spec q h.adj h.tab (by rw [hst]; exact hx) d
  rw [hst] at c4
  have hPn : P.numberOfElements = p.numLabels.length := by rw [c2.size, c3]
  have hreps := Partition.representatives_eq c2.toInv
  have hlen0 : 0 < p.numLabels.length := List.length_pos_iff.mpr hne
  have hsets : 0 < P.numberOfSets := by
    rw [c2.sets]
    obtain ⟨h1, _⟩ := c2.root 0 (by rw [hPn]; exact hlen0)
    exact List.length_pos_of_mem (List.mem_filter.mpr ⟨List.mem_range.mpr h1, by simpa using c2.toTrees.rep_rep (by rw [hPn]; exact hlen0)⟩)
  have hi : d.cluster % P.numberOfSets < P.representatives.length := by rw [hreps, ← c2.sets]; exact Nat.mod_lt _ hsets
  obtain ⟨r, hr⟩ : ∃ r, P.representatives[d.cluster % P.numberOfSets]? = some r := ⟨_, List.getElem?_eq_getElem hi⟩
  have hrm := List.mem_of_getElem? hr
  rw [hreps, List.mem_filter, List.mem_range, hPn, decide_eq_true_eq] at hrm
  obtain ⟨hrn, hrr⟩ := hrm
  obtain ⟨s, s1, s2, s3, s4, s5, s6, s7, s8⟩ := search_cluster h.adj c2 c3 hrn hrr (fun v w hvw => ((c4 v w).mp hvw).2.1)
  -- the cluster
  have hequiv : ∀ v, v < p.numLabels.length → (rep v = r ↔ Relation.EqvGen (p.turnedOn q.o.toOperation q.convert x d.edge) r v) := by
    intro v hv
    have := c2.equiv r v (by rw [c3]; exact hrn) (by rw [c3]; exact hv)
    rw [hrr] at this
    rw [eq_comm, this]
    unfold Merged.Equiv
    have e : (fun a b => (a, b) ∈ sm.pairs) = p.turnedOn q.o.toOperation q.convert x d.edge := by
      funext a b; exact propext (c4 a b)
    rw [e]
  have hsame : ∀ {a b}, Relation.EqvGen (p.turnedOn q.o.toOperation q.convert x d.edge) a b → x[a]? = x[b]? ∧ p.numLabels[a]? = p.numLabels[b]? := by
    intro a b hab
    induction hab with
    | rel a b hab =>
      refine ⟨hab.2.2.1, ?_⟩
      by_contra hne
      have := hab.2.2.2
      rw [edgeProbability_of_ne _ _ _ hne] at this
      exact absurd (hd a b) (not_le.mpr this)
    | refl a => exact ⟨rfl, rfl⟩
    | symm a b _ ih => exact ⟨ih.1.symm, ih.2.symm⟩
    | trans a b c _ _ i1 i2 => exact ⟨i1.1.trans i2.1, i1.2.trans i2.2⟩
  obtain ⟨old, hold⟩ : ∃ l, x[r]? = some l := ⟨_, List.getElem?_eq_getElem (by rw [hx.1]; exact hrn)⟩
  obtain ⟨nr, hnr⟩ : ∃ l, p.numLabels[r]? = some l := ⟨_, List.getElem?_eq_getElem hrn⟩
  have hnr0 : 0 < nr := hpos nr (List.mem_of_getElem? hnr)
  -- the move
  obtain ⟨new, hnew⟩ : ∃ l, l = d.label % nr := ⟨_, rfl⟩
  have hnewlt : new < nr := by rw [hnew]; exact Nat.mod_lt _ hnr0
  have hvr : ∀ v ∈ s.variablesInCluster, v < p.numLabels.length := fun v hv => ((s6 v).mp hv).1
  have hin : InRange p.numLabels s.variablesInCluster (List.replicate s.variablesInCluster.length new) := by
    refine ⟨by simp, ?_⟩
    intro i v l n h1 h2 h3
    obtain ⟨hv, hrv⟩ := (s6 v).mp (List.mem_of_getElem? h1)
    have h4 := (hsame ((hequiv v hv).mp hrv)).2
    rw [h3, hnr] at h4
    cases h4
    rw [List.getElem?_replicate] at h2
    split at h2
    · cases h2; exact hnewlt
    · cases h2
  have hC : ∀ v, v ∈ s.variablesInCluster.toFinset ↔ v < p.numLabels.length ∧ rep v = r := by intro v; rw [List.mem_toFinset]; exact s6 v
  have hmove : p.ClusterMove q.o.toOperation q.convert d.edge x s.variablesInCluster.toFinset old new (fill x s.variablesInCluster (List.replicate s.variablesInCluster.length new)) := by
    refine ⟨⟨r, (hC r).mpr ⟨hrn, hrr⟩, ?_⟩, ?_, ?_, ?_, ?_⟩
    · intro v
      rw [hC]
      exact and_congr_right (fun hv => hequiv v hv)
    · intro v hv
      obtain ⟨h1, h2⟩ := (hC v).mp hv
      rw [← (hsame ((hequiv v h1).mp h2)).1]; exact hold
    · intro v hv
      obtain ⟨i, hi⟩ := List.mem_iff_getElem?.mp (List.mem_toFinset.mp hv)
      refine fill_at x _ _ i v new s4 (fun v hv => by rw [hx.1]; exact hvr v hv) hi ?_
      rw [List.getElem?_replicate, if_pos (List.getElem?_eq_some_iff.mp hi).1]
    · intro v hv
      exact fill_other x _ _ v (fun h => hv (List.mem_toFinset.mpr h))
    · exact fill_labeling hx _ _ s4 (fun v hv => by rw [hx.1]; exact hvr v hv) hin
  have hcard : s.variablesInCluster.length = s.variablesInCluster.toFinset.card := (List.toFinset_card_of_nodup s4).symm
  have haround : ∀ v, v ∈ s.variablesAroundCluster ↔ v < p.numLabels.length ∧ v ∉ s.variablesInCluster.toFinset ∧ ∃ w ∈ s.variablesInCluster.toFinset, p.adjacent v w = true := by
    intro v
    rw [s7]
    refine and_congr_right (fun hv => and_congr ?_ ?_)
    · rw [hC]; exact ⟨fun h h' => h h'.2, fun h h' => h ⟨hv, h'⟩⟩
    · constructor
      · rintro ⟨w, h1, h2⟩; exact ⟨w, (hC w).mpr ⟨(h.adj.range w v h2).1, h1⟩, by rw [adjacent_symm]; exact h2⟩
      · rintro ⟨w, h1, h2⟩; exact ⟨w, ((hC w).mp h1).2, by rw [adjacent_symm]; exact h2⟩
  have hlt : ∀ v w, p.adjacent v w = true → p.edgeProbability q.o.toOperation q.convert v w < 1 := fun v w hvw => probability_lt hl h.good hvw
  have hchosen : ∃ P r n, clusterLoop g d (edges g.variableAdjacency) (Partition.ofSize p.numLabels.length) = some P ∧ P.representatives[d.cluster % P.numberOfSets]? = some r ∧
      (∀ v, v ∈ s.variablesInCluster.toFinset ↔ v < p.numLabels.length ∧ Relation.EqvGen (p.turnedOn q.o.toOperation q.convert x d.edge) r v) ∧ p.numLabels[r]? = some n ∧ new = d.label % n :=
    ⟨P, r, nr, c1, hr, fun v => by rw [hC]; exact and_congr_right (fun hv => hequiv v hv), hnr, hnew⟩
  have key : ∃ g' seen, relabel q burning d r new s g = some (g', seen) ∧
      StepSpec q gm p burning d g g' x seen s.variablesInCluster.toFinset old new (fill x s.variablesInCluster (List.replicate s.variablesInCluster.length new)) := by
    unfold relabel
    simp only
    cases burning with
    | true =>
      obtain ⟨g', m1, m2, m3, m4⟩ := move_spec' ho h false _ _ s4 hvr hin
      rw [if_pos rfl, m1]
      refine ⟨g', _, rfl, hmove, hcard, rfl, by simp, ?_, ?_, m3, hchosen, ?_⟩
      · simp only [if_true]; exact m2.tracks.state
      · simp only; rw [m2.tracks.state]; exact m2
      · rw [m4]; simp
    | false =>
      rw [if_neg (by simp), Movemaker.valueAfterMove_spec q.multiplier ho h.tracks _ _ s4 hvr hin]
      simp only
      have hp := proposals_list (q := q) (new := new) h.adj h.tab hC (by rw [hst]; exact hx) (by rw [hst]; exact hold) s.variablesAroundCluster s.partition (1, 1) (fun v hv => ((haround v).mp hv).1) s2 s3
      have hg : ({ g with movemaker := g.movemaker } : Obj V F) = g := rfl
      rw [hp]
      simp only
      rw [hst, boundary_list _ s5 haround, one_mul, one_mul]
      have hval : g.movemaker.value = p.energy q.o.toOperation x := h.tracks.energy
      have htarget : ((s.variablesAroundCluster.filter (fun v => decide (x[v]? = some new ∧ new ≠ old))).map (inner p (p.edgeProbability q.o.toOperation q.convert) s.variablesInCluster.toFinset)).prod =
          if new = old then 1 else p.boundary (p.edgeProbability q.o.toOperation q.convert) s.variablesInCluster.toFinset x new := by
        by_cases e : new = old
        · rw [if_pos e, List.filter_eq_nil_iff.mpr (by intro v _; simp [e])]; simp
        · rw [if_neg e, ← boundary_list _ s5 haround]
          congr 3
          funext v
          simp [e]
      rw [htarget, hval, if_neg (by
        rintro (h0 | h0)
        · exact absurd h0 (ne_of_gt (boundary_pos hlt _ _ _))
        · exact hc x hx h0)]
      have hratio : p.ratio (p.edgeProbability q.o.toOperation q.convert) (fun y => q.convert (p.energy q.o.toOperation y)) s.variablesInCluster.toFinset x (fill x s.variablesInCluster (List.replicate s.variablesInCluster.length new)) old new =
        (if new = old then 1 else p.boundary (p.edgeProbability q.o.toOperation q.convert) s.variablesInCluster.toFinset x new) / p.boundary (p.edgeProbability q.o.toOperation q.convert) s.variablesInCluster.toFinset x old *
        (q.convert (p.energy q.o.toOperation (fill x s.variablesInCluster (List.replicate s.variablesInCluster.length new))) / q.convert (p.energy q.o.toOperation x)) := rfl
      rw [← hratio]
      by_cases hacc : p.ratio (p.edgeProbability q.o.toOperation q.convert) (fun y => q.convert (p.energy q.o.toOperation y)) s.variablesInCluster.toFinset x (fill x s.variablesInCluster (List.replicate s.variablesInCluster.length new)) old new ≥ 1 ∨
        p.ratio (p.edgeProbability q.o.toOperation q.convert) (fun y => q.convert (p.energy q.o.toOperation y)) s.variablesInCluster.toFinset x (fill x s.variablesInCluster (List.replicate s.variablesInCluster.length new)) old new ≥ d.acceptance
      · obtain ⟨g', m1, m2, m3, m4⟩ := move_spec' ho h true _ _ s4 hvr hin
        rw [if_pos hacc, m1]
        refine ⟨g', _, rfl, hmove, hcard, rfl, ?_, ?_, ?_, m3, hchosen, ?_⟩
        · simp only [true_iff]; exact Or.inr hacc
        · simp only [if_true]; exact m2.tracks.state
        · simp only; rw [m2.tracks.state]; exact m2
        · rw [m4]; simp
      · rw [if_neg hacc]
        refine ⟨_, _, rfl, hmove, hcard, rfl, ?_, ?_, ?_, rfl, hchosen, ?_⟩
        · simp only [Bool.false_eq_true, false_or, false_iff]; exact hacc
        · simpa using hst
        · simp only [hst]; exact h
        · simp
  obtain ⟨g', seen, k1, k2⟩ := key
  refine ⟨g', seen, _, old, new, _, ?_, k2⟩
  unfold step
  rw [hn, c1]
  simp only
  have hu : (uniform d.cluster P.numberOfSets).bind (fun i => P.representatives[i]?) = some r := by
    unfold uniform
    rw [if_neg (by omega)]
    exact hr
  rw [hu]
  simp only
  rw [if_pos (by simpa using hrn), s1]
  simp only
  have hu2 : (g.gm.numLabels[r]?).bind (uniform d.label) = some new := by
    rw [h.model, hb.labels, hnr]
    unfold uniform
    simp only [Option.bind_some]
    rw [if_neg (by omega), hnew]
  rw [s8, hu2]
  simp only
  rw [k1]

omit [IsStrictOrderedRing F] in
/-- The clusters depend on the random numbers of the edges only. -/
theorem clusterLoop_congr {g : Obj V F} {d d' : Draw F} (h : d.edge = d'.edge) : ∀ (es : List (Nat × Nat)) (P : Partition), clusterLoop g d es P = clusterLoop g d' es P
  | [], P => rfl
  | (v, j) :: es, P => by
    unfold clusterLoop
    simp only [h, clusterLoop_congr h es]

theorem StepSpec.pass {burning : Bool} {d : Draw F} {g g' : Obj V F} {x : List Nat} {seen : Seen} {C : Finset Nat} {old new : Nat} {z : List Nat} (h : StepSpec q gm p burning d g g' x seen C old new z) :
    p.Pass q.o.toOperation q.convert burning d.edge d.acceptance x seen.clusterSize seen.accepted seen.burningIn seen.state :=
  ⟨C, old, new, z, h.move, h.size, h.burnIn, h.accepted, h.state⟩

theorem loop_spec (hb : Represents gm p) (hne : p.numLabels ≠ []) (hpos : ∀ n ∈ p.numLabels, 0 < n) (ho : q.multiplier = true ∨ q.o.Laws) (hc : ∀ y, p.Labeling y → q.convert (p.energy q.o.toOperation y) ≠ 0)
    (hord : StrictOrder q.bop) (htot : ∀ a b, q.bop a b = false → q.bop b a = false → a = b) (draw : Nat → Draw F) (hd : ∀ i v w, 0 ≤ (draw i).edge v w) : ∀ (n j : Nat) (g : Obj V F) (x : List Nat), Inv q gm p g x → 0 < g.parameter.lowestAllowedProbability →
    ∃ g' seen x', loop q draw n j (List.replicate p.numLabels.length false) g = some (g', seen) ∧ Inv q gm p g' x' ∧ g'.parameter = g.parameter ∧ seen.length = n ∧
      (∀ k s, seen[k]? = some s → ∃ y, (x :: seen.map (·.state))[k]? = some y ∧
        p.Pass q.o.toOperation q.convert (decide (j + k < g.parameter.numberOfBurnInSteps)) (draw (j + k)).edge (draw (j + k)).acceptance y s.clusterSize s.accepted s.burningIn s.state) ∧
      (x :: seen.map (·.state))[n]? = some x' ∧
      q.bop g.currentBestValue g'.currentBestValue = false ∧
      (∀ s ∈ seen, s.accepted = true → s.burningIn = false → q.bop (p.energy q.o.toOperation s.state) g'.currentBestValue = false) ∧
      ((g'.currentBestState, g'.currentBestValue) = (g.currentBestState, g.currentBestValue) ∨
        ∃ s ∈ seen, s.accepted = true ∧ s.burningIn = false ∧ (g'.currentBestState, g'.currentBestValue) = (s.state, p.energy q.o.toOperation s.state)) := by
  have neg : ∀ {a b c : V}, q.bop b a = false → q.bop c b = false → q.bop c a = false := by
    intro a b c h1 h2
    by_contra h3
    have h3 : q.bop c a = true := by simpa using h3
    by_cases h4 : q.bop a b = true
    · rw [hord.trans _ _ _ h3 h4] at h2; cases h2
    · have := htot a b (by simpa using h4) h1
      subst this
      rw [h3] at h2; cases h2
  intro n
  induction n with
  | zero =>
    intro j g x h _
    exact ⟨g, [], x, rfl, h, rfl, rfl, by simp, rfl, hord.irrefl _, by simp, Or.inl rfl⟩
  | succ n ih =>
    intro j g x h hl
    obtain ⟨g1, s1, C, old, new, z, e1, e2⟩ := step_spec hb hne hpos ho hc (decide (j < g.parameter.numberOfBurnInSteps)) (draw j) (hd j) h hl
    obtain ⟨g', seen, x', f1, f2, f3, f4, f5, f6, f7, f8, f9⟩ := ih (j + 1) g1 s1.state e2.inv (by rw [e2.parameter]; exact hl)
    have hstep : q.bop g.currentBestValue g1.currentBestValue = false ∧ (s1.accepted = true → s1.burningIn = false → q.bop (p.energy q.o.toOperation s1.state) g1.currentBestValue = false) ∧
        ((g1.currentBestState, g1.currentBestValue) = (g.currentBestState, g.currentBestValue) ∨ (s1.accepted = true ∧ s1.burningIn = false ∧ (g1.currentBestState, g1.currentBestValue) = (s1.state, p.energy q.o.toOperation s1.state))) := by
      have hbest := e2.best
      by_cases hcond : decide (j < g.parameter.numberOfBurnInSteps) = false ∧ s1.accepted = true ∧ q.bop (p.energy q.o.toOperation z) g.currentBestValue = true
      · rw [if_pos hcond] at hbest
        have hs : s1.state = z := by rw [e2.state, if_pos hcond.2.1]
        have hv := congrArg Prod.snd hbest
        simp only at hv
        refine ⟨?_, ?_, Or.inr ⟨hcond.2.1, by rw [e2.burnIn]; exact hcond.1, by rw [hs]; exact hbest⟩⟩
        · rw [hv]
          by_contra h3
          have h3 : q.bop g.currentBestValue (p.energy q.o.toOperation z) = true := by simpa using h3
          have := hord.trans _ _ _ h3 hcond.2.2
          rw [hord.irrefl] at this; cases this
        · intro _ _; rw [hv, hs]; exact hord.irrefl _
      · rw [if_neg hcond] at hbest
        have hv := congrArg Prod.snd hbest
        simp only at hv
        refine ⟨by rw [hv]; exact hord.irrefl _, ?_, Or.inl hbest⟩
        intro ha hb'
        rw [e2.state, if_pos ha, hv]
        by_contra h3
        exact hcond ⟨by rw [← e2.burnIn]; exact hb', ha, by simpa using h3⟩
    refine ⟨g', s1 :: seen, x', ?_, f2, f3.trans e2.parameter, by rw [List.length_cons, f4], ?_, ?_, neg f7 hstep.1, ?_, ?_⟩
    · unfold loop
      rw [e1]
      simp only
      rw [f1]
    · intro k s hk
      cases k with
      | zero =>
        simp only [List.getElem?_cons_zero, Option.some.injEq] at hk
        subst hk
        exact ⟨x, rfl, e2.pass⟩
      | succ k =>
        rw [List.getElem?_cons_succ] at hk
        obtain ⟨y, y1, y2⟩ := f5 k s hk
        refine ⟨y, by rw [List.getElem?_cons_succ]; exact y1, ?_⟩
        rw [e2.parameter, show j + 1 + k = j + (k + 1) by omega] at y2
        exact y2
    · rw [List.getElem?_cons_succ]; exact f6
    · intro s hs
      rcases List.mem_cons.mp hs with rfl | hs
      · intro h1 h2; exact neg f7 (hstep.2.1 h1 h2)
      · exact f8 s hs
    · rcases f9 with f9 | ⟨s, m1, m2⟩
      · rw [f9]
        rcases hstep.2.2 with h1 | h1
        · exact Or.inl h1
        · exact Or.inr ⟨s1, by simp, h1⟩
      · exact Or.inr ⟨s, by simp [m1], m2⟩

end OpenGM.SwendsenWang
