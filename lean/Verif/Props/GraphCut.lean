import Verif.Lemmas.GraphCut
import Verif.Props.GraphicalModel
import Verif.Props.Movemaker
import Mathlib.Data.Fintype.List
import Mathlib.Data.Fintype.Vector
import Mathlib.Data.Finset.Lattice.Fold
/-
C41: the class GraphCut.
-/
namespace OpenGM
open Spec
namespace GraphCut
variable {V : Type} [CommRing V] [LinearOrder V]

theorem restrict_two (nl vs : List Nat) (h2 : ∀ n ∈ nl, n = 2) (hv : ∀ v ∈ vs, v < nl.length) :
    restrict nl vs = List.replicate vs.length 2 := by
  unfold restrict
  induction vs with
  | nil => rfl
  | cons v vs ih =>
    have hl : v < nl.length := hv v (by simp)
    have : nl.getD v 0 = 2 := by simp [hl, h2 _ (List.getElem_mem hl)]
    rw [List.map_cons, this, ih (fun w hw => hv w (by simp [hw])), List.length_cons, List.replicate_succ]

theorem inShape_replicate (c : List Nat) (k : Nat) (hk : c.length = k) (hc : ∀ l ∈ c, l < 2) : InShape (List.replicate k 2) c := by
  subst hk
  induction c with
  | nil => simp [InShape]
  | cons a c ih =>
    rw [List.length_cons, List.replicate_succ]
    exact ⟨hc a (by simp), ih (fun l hl => hc l (by simp [hl]))⟩

theorem viewOf_matches {gm : GM V} {p : Problem V} (hs : Stores gm p) (h2 : ∀ n ∈ p.numLabels, n = 2)
    (ho : ∀ t ∈ p.terms, t.vars.length ≤ 2) (N : Nat) (hN : p.numLabels.length ≤ N) :
    List.Forall₂ (ViewMatches N) (gm.factors.map (viewOf gm)) p.terms := by
  rw [List.forall₂_map_left_iff]
  have hl := hs.labels
  have : List.Forall₂ (fun f t => FactorMatches gm f t ∧ t ∈ p.terms) gm.factors p.terms := by
    rw [List.forall₂_iff_get]
    refine ⟨hs.factors.length_eq, fun i h1 h2 => ⟨?_, List.getElem_mem h2⟩⟩
    exact (List.forall₂_iff_get.mp hs.factors).2 i h1 h2
  refine this.imp ?_
  rintro f t ⟨hm, ht⟩
  refine ⟨hm.scope, fun v hv => ?_, ho t ht, ?_⟩
  · have := hm.range v hv
    rw [hl] at this
    omega
  · intro c hc hne hlt
    obtain ⟨fn, h1, h3, h4⟩ := hm.fn
    rw [restrict_two _ _ (by rw [hl]; exact h2) hm.range] at h3
    have hin : InShape fn.shape c := by rw [h3]; exact inShape_replicate c _ hc hlt
    simp only [viewOf, GM.callFactor, h1, callFn]
    cases hsh : fn.shape with
    | nil => rw [hsh] at hin; cases c with
      | nil => exact absurd rfl hne
      | cons a c => simp [InShape] at hin
    | cons n sh =>
      simp only [← hsh]
      have h5 := inShape_of_InShape _ _ [] hin
      rw [List.append_nil] at h5
      rw [h5, if_pos rfl, ← InShape_length _ _ hin, List.take_length, h4 c hin]

theorem construct_spec [IsStrictOrderedRing V] {acc : Acc} (hacc : acc ≠ .other) {gm : GM V} {p : Problem V} (hs : Stores gm p)
    (h2 : ∀ n ∈ p.numLabels, n = 2) (ho : ∀ t ∈ p.terms, t.vars.length ≤ 2) (scale tol : V)
    (hr : ∀ t ∈ p.terms, Representable acc |tol| t) :
    ∃ g, construct acc gm scale tol = .ok () (some g) ∧ WF g ∧ Frame (start p.numLabels.length 0 scale tol) g ∧
      (∃ c, ∀ seg, pot g seg = scale * (sgn acc * (p.terms.map (fun t => t.table (t.vars.map (lab seg)))).sum + c)) ∧
      (0 ≤ scale → (∀ t ∈ p.terms, Good acc t) → NN g) := by
  have hl := hs.labels
  have hsize : ∀ f ∈ gm.factors, f.visSize ≤ 2 := by
    intro f hf
    obtain ⟨i, hi, rfl⟩ := List.getElem_of_mem hf
    have hi' : i < p.terms.length := by rw [← hs.factors.length_eq]; exact hi
    have hm := (List.forall₂_iff_get.mp hs.factors).2 i hi hi'
    have := hm.visSize
    simp only [List.get_eq_getElem] at this
    rw [this]
    exact ho _ (List.getElem_mem hi')
  have hc : gm.factors.countP (fun f => decide (f.visSize = 3)) = 0 := by
    rw [List.countP_eq_zero]
    intro f hf
    have := hsize f hf
    simp; omega
  have hn : gm.numberOfVariables = p.numLabels.length := by rw [GM.numberOfVariables, hl]
  obtain ⟨g, e, w, f, ⟨c, hp⟩, nn⟩ := addFactors_spec acc (p.numLabels.length) (viewOf_matches hs h2 ho _ (le_refl _))
    (start p.numLabels.length 0 scale tol) (start_wf _ _ _ _) (by simp [start]) (by simpa [start] using hr)
  refine ⟨g, ?_, w, f, ⟨c, fun seg => ?_⟩, fun h1 h2 => nn h1 h2 (start_nn _ _ _ _)⟩
  · unfold construct
    rw [if_neg hacc, if_neg (by rw [hl]; simpa using h2), if_neg (by simpa using fun f hf => by have := hsize f hf; omega),
      hn, hc, e]
  · rw [hp seg, start_pot, zero_add]
    rfl

theorem sum_foldl (l : List V) : l.foldl (sumOp V).op (sumOp V).neutral = l.sum := by
  rw [List.sum_eq_foldl]
  rfl

theorem energy_segOf {p : Problem V} (h2 : ∀ n ∈ p.numLabels, n = 2) {x : List Nat} (hx : p.Labeling x) :
    (p.terms.map (fun t => t.table (t.vars.map (lab (segOf x))))).sum = p.energy (sumOp V) x := by
  unfold Problem.energy
  rw [sum_foldl]
  congr 1
  apply List.map_congr_left
  intro t _
  unfold Term.value restrict
  congr 1
  apply List.map_congr_left
  intro v _
  refine lab_segOf x ?_ v
  intro l hl
  obtain ⟨i, hi, rfl⟩ := List.getElem_of_mem hl
  have hi' : i < p.numLabels.length := hx.1 ▸ hi
  have := hx.2 i x[i] p.numLabels[i] (List.getElem?_eq_getElem hi) (List.getElem?_eq_getElem hi')
  rw [h2 _ (List.getElem_mem hi')] at this
  exact this

/-- How the energy enters the cut: as it is for `Minimizer`, negated for `Maximizer`. -/
def signed (acc : Acc) (e : V) : V := if acc = .maximizer then -e else e

theorem sgn_signed [IsStrictOrderedRing V] {acc : Acc} (hacc : acc ≠ .other) (e : V) : sgn acc * e = signed acc e := by
  cases acc <;> simp [sgn, signed] at *

/-- C41, the construction: for every model with two labels per variable and terms of order at most 2, submodular for `Minimizer`
or supermodular for `Maximizer`, the constructor succeeds, and after `infer` the solver has been given a network with
nonnegative capacities in which the capacity of the cut of every labeling is the (for `Maximizer` negated) energy of the
labeling, times the scale, plus a constant that does not depend on the labeling. -/
theorem C41_cut_value [IsStrictOrderedRing V] (acc : Acc) (hacc : acc ≠ .other) (gm : GM V) (p : Problem V) (hb : BuiltModel gm p)
    (h2 : ∀ n ∈ p.numLabels, n = 2) (ho : ∀ t ∈ p.terms, t.vars.length ≤ 2)
    (hsub : if acc = .minimizer then p.Submodular else p.Supermodular)
    (scale tolerance : V) (hscale : 0 ≤ scale) (solver : Network V → List Bool → List Bool) :
    ∃ g g', construct acc gm scale tolerance = .ok () (some g) ∧ infer solver g = some g' ∧
      g'.network.numNodes = 2 + p.numLabels.length ∧ g'.network.Proper ∧ g'.state = solver g'.network [] ∧
      ∃ const, ∀ x, p.Labeling x →
        g'.network.cutValue (segOf x) = scale * signed acc (p.energy (sumOp V) x) + const := by
  have hgood : ∀ t ∈ p.terms, Good acc t := by
    intro t ht hlen
    cases acc with
    | other => exact absurd rfl hacc
    | minimizer => simpa [sgn] using hsub t ht hlen
    | maximizer =>
      have := hsub t ht hlen
      simp [sgn]
      linarith
  obtain ⟨g, e, w, f, ⟨c, hp⟩, nn⟩ := construct_spec hacc hb.represents.toStores h2 ho scale tolerance
    (fun t ht hlen => Or.inl (hgood t ht hlen))
  obtain ⟨n, e', hn, hcut, hproper⟩ := infer_spec solver g w
  refine ⟨g, _, e, e', ?_, hproper (nn hscale hgood), ?_, ⟨scale * c, fun x hx => ?_⟩⟩
  · show n.numNodes = _
    rw [hn, f.slen]; simp [start]
  · show solver n g.state = solver n []
    rw [f.state]; rfl
  · show n.cutValue _ = _
    rw [hcut, hp, energy_segOf h2 hx, sgn_signed hacc]
    ring

/-- The identity alone needs no submodularity, only that no quadratic coefficient lies within the tolerance below zero (where
the code replaces it by zero); in particular it holds for every model when the tolerance is 0. -/
theorem C41_cut_value_general [IsStrictOrderedRing V] (acc : Acc) (hacc : acc ≠ .other) (gm : GM V) (p : Problem V) (hb : BuiltModel gm p)
    (h2 : ∀ n ∈ p.numLabels, n = 2) (ho : ∀ t ∈ p.terms, t.vars.length ≤ 2)
    (scale : V) (solver : Network V → List Bool → List Bool) :
    ∃ g g', construct acc gm scale 0 = .ok () (some g) ∧ infer solver g = some g' ∧
      ∃ const, ∀ x, p.Labeling x →
        g'.network.cutValue (segOf x) = scale * signed acc (p.energy (sumOp V) x) + const := by
  obtain ⟨g, e, w, f, ⟨c, hp⟩, nn⟩ := construct_spec hacc hb.represents.toStores h2 ho scale 0
    (fun t ht hlen => by
      rw [abs_zero, neg_zero]
      rcases le_or_gt (sgn acc * t.table [0, 0] + sgn acc * t.table [1, 1]) (sgn acc * t.table [0, 1] + sgn acc * t.table [1, 0]) with h | h
      · exact Or.inl h
      · right; linarith)
  obtain ⟨n, e', hn, hcut, hproper⟩ := infer_spec solver g w
  refine ⟨g, _, e, e', ⟨scale * c, fun x hx => ?_⟩⟩
  show n.cutValue _ = _
  rw [hcut, hp, energy_segOf h2 hx, sgn_signed hacc]
  ring

/-- C41: for every model with two labels per variable and terms of order at most 2, submodular for `Minimizer` or
supermodular for `Maximizer`, every positive scale, every tolerance and every exact solver of the minimum cut problem: the
constructor and the (first) call of `infer` succeed and `arg` returns NORMAL and an optimal labeling.
Missing: factors of order 3 (see `C41_violated_order3`) and repeated calls of `infer` (see `C41_violated_infer_twice`). -/
theorem C41_graphcut_partial [IsStrictOrderedRing V] (acc : Acc) (hacc : acc ≠ .other) (gm : GM V) (p : Problem V) (hb : BuiltModel gm p)
    (h2 : ∀ n ∈ p.numLabels, n = 2) (ho : ∀ t ∈ p.terms, t.vars.length ≤ 2)
    (hsub : if acc = .minimizer then p.Submodular else p.Supermodular)
    (scale tolerance : V) (hscale : 0 < scale) (solver : Network V → List Bool → List Bool)
    (hsolver : ExactSolver (fun n => solver n [])) (old : List Nat) :
    ∃ g g' x, construct acc gm scale tolerance = .ok () (some g) ∧ infer solver g = some g' ∧
      arg g' old 1 = some (.normal, x) ∧ p.Labeling x ∧
      ∀ y, p.Labeling y → signed acc (p.energy (sumOp V) x) ≤ signed acc (p.energy (sumOp V) y) := by
  have hgood : ∀ t ∈ p.terms, Good acc t := by
    intro t ht hlen
    cases acc with
    | other => exact absurd rfl hacc
    | minimizer => simpa [sgn] using hsub t ht hlen
    | maximizer =>
      have := hsub t ht hlen
      simp [sgn]
      linarith
  obtain ⟨g, e, w, f, ⟨c, hp⟩, nn⟩ := construct_spec hacc hb.represents.toStores h2 ho scale tolerance
    (fun t ht hlen => Or.inl (hgood t ht hlen))
  obtain ⟨n, e', hn, hcut, hproper⟩ := infer_spec solver g w
  have hslen : g.sEdges.length = p.numLabels.length := by rw [f.slen]; simp [start]
  rw [hslen] at hn
  have hst : g.state = [] := f.state
  have h3 : g.numFacDim3 = 0 := f.numFacDim3
  rw [hst] at e'
  obtain ⟨hlen, hmin⟩ := hsolver n (by omega) (hproper (nn hscale.le hgood))
  have hx : p.Labeling ((List.range p.numLabels.length).map (lab (solver n []))) := by
    constructor
    · simp
    · intro v l m hl hm
      rw [h2 m (List.mem_of_getElem? hm)]
      have := List.mem_of_getElem? hl
      simp only [List.mem_map] at this
      obtain ⟨k, _, rfl⟩ := this
      unfold lab
      split <;> omega
  refine ⟨g, _, (List.range p.numLabels.length).map (lab (solver n [])), e, e', ?_, hx, ?_⟩
  · unfold arg
    simp only [h3]
    rw [if_neg (by simp), if_neg (by omega)]
    have : (if 2 + 0 < (solver n []).length then (solver n []).length - 2 - 0 else 0) = p.numLabels.length := by
      rw [hlen, hn]; split <;> omega
    rw [this, readState_spec _ _ (by intro j hj; rw [hlen, hn]; simp at hj; omega)]
  · intro y hy
    have key : ∀ seg : List Bool, n.cutValue seg = scale * (sgn acc * (p.terms.map (fun t => t.table (t.vars.map (lab seg)))).sum + c) := by
      intro seg; rw [hcut, hp]
    have hxe : (p.terms.map (fun t => t.table (t.vars.map (lab (solver n []))))).sum =
        p.energy (sumOp V) ((List.range p.numLabels.length).map (lab (solver n []))) := by
      unfold Problem.energy
      rw [sum_foldl]
      congr 1
      apply List.map_congr_left
      intro t ht
      unfold Term.value restrict
      congr 1
      apply List.map_congr_left
      intro v hv
      have hvl : v < p.numLabels.length := by
        obtain ⟨i, hi, rfl⟩ := List.getElem_of_mem ht
        have hi' : i < gm.factors.length := by rw [hb.represents.factors.length_eq]; exact hi
        have hm := (List.forall₂_iff_get.mp hb.represents.factors).2 i hi' hi
        have := hm.range v (by simpa using hv)
        rwa [hb.represents.labels] at this
      simp [hvl]
    have := hmin (segOf y) (by simp [segOf, hy.1, hn]; omega)
    simp only at this
    rw [key, key, hxe, energy_segOf h2 hy, sgn_signed hacc, sgn_signed hacc] at this
    have := le_of_mul_le_mul_left this hscale
    linarith

/-- There is an exact solver: try all partitions. -/
theorem exactSolver_exists [IsStrictOrderedRing V] : ∃ s : Network V → List Bool, ExactSolver s := by
  classical
  have : ∀ n : Network V, ∃ seg, n.IsMinCut seg := by
    intro n
    obtain ⟨v, _, hv⟩ := Finset.exists_min_image (Finset.univ : Finset (List.Vector Bool n.numNodes))
      (fun v => n.cutValue v.toList) ⟨List.Vector.replicate _ false, Finset.mem_univ _⟩
    refine ⟨v.toList, v.toList_length, fun seg' h => ?_⟩
    exact hv ⟨seg', h⟩ (Finset.mem_univ _)
  choose s hs using this
  exact ⟨s, fun n _ _ => hs n⟩

/-- The constructor throws for accumulators other than `Minimizer` and `Maximizer`, if a variable does not have two labels, and
if a factor has more than three variables. -/
theorem C41_throws (acc : Acc) (gm : GM V) (p : Problem V) (hb : BuiltModel gm p) (scale tolerance : V)
    (h : acc = .other ∨ (∃ n ∈ p.numLabels, n ≠ 2) ∨ (∃ t ∈ p.terms, 3 < t.vars.length)) :
    construct acc gm scale tolerance = .throw none := by
  have hs := hb.represents.toStores
  unfold construct
  by_cases h1 : acc = .other
  · rw [if_pos h1]
  rw [if_neg h1]
  by_cases h2 : ∃ n ∈ p.numLabels, n ≠ 2
  · rw [if_pos (by rw [hs.labels]; simpa using h2)]
  rw [if_neg (by rw [hs.labels]; simpa using h2)]
  obtain ⟨t, ht, hl⟩ : ∃ t ∈ p.terms, 3 < t.vars.length := by
    rcases h with h | h | h
    · exact absurd h h1
    · exact absurd h h2
    · exact h
  obtain ⟨i, hi, rfl⟩ := List.getElem_of_mem ht
  have hi' : i < gm.factors.length := by rw [hs.factors.length_eq]; exact hi
  have hm := (List.forall₂_iff_get.mp hs.factors).2 i hi' hi
  have := hm.visSize
  simp only [List.get_eq_getElem] at this
  rw [if_pos (by simp only [List.any_eq_true, decide_eq_true_eq]; exact ⟨_, List.getElem_mem hi', by omega⟩)]

/-- The same for factors that the user adds to an object made from the number of variables (as AlphaExpansion does): every
sequence of factors of order at most 2 on variables that exist, with the right sign, then `infer`, gives a partition
whose labels minimise the (signed) sum of the factors among all assignments of two labels. -/
theorem C41_added_factors [IsStrictOrderedRing V] (acc : Acc) (hacc : acc ≠ .other) (numVariables : Nat)
    (fs : List (FactorView V)) (ts : List (Term V)) (hf : List.Forall₂ (ViewMatches numVariables) fs ts)
    (hsub : if acc = .minimizer then (⟨[], ts⟩ : Problem V).Submodular else (⟨[], ts⟩ : Problem V).Supermodular)
    (scale tolerance : V) (hscale : 0 < scale) (solver : Network V → List Bool → List Bool)
    (hsolver : ExactSolver (fun n => solver n [])) (old : List Nat) :
    ∃ g g' x, addFactors acc (start numVariables 0 scale tolerance) fs = .ok () g ∧ infer solver g = some g' ∧
      arg g' old 1 = some (.normal, x) ∧ x.length = numVariables ∧ (∀ l ∈ x, l < 2) ∧
      ∀ y : List Nat, y.length = numVariables → (∀ l ∈ y, l < 2) →
        signed acc (ts.map (fun t => t.value x)).sum ≤ signed acc (ts.map (fun t => t.value y)).sum := by
  have hgood : ∀ t ∈ ts, Good acc t := by
    intro t ht hlen
    cases acc with
    | other => exact absurd rfl hacc
    | minimizer => simpa [sgn] using hsub t ht hlen
    | maximizer =>
      have := hsub t ht hlen
      simp [sgn]
      linarith
  obtain ⟨g, e, w, f, ⟨c, hp⟩, nn⟩ := addFactors_spec acc numVariables hf
    (start numVariables 0 scale tolerance) (start_wf _ _ _ _) (by simp [start]) (fun t ht hlen => Or.inl (hgood t ht hlen))
  obtain ⟨n, e', hn, hcut, hproper⟩ := infer_spec solver g w
  have hslen : g.sEdges.length = numVariables := by rw [f.slen]; simp [start]
  rw [hslen] at hn
  have hst : g.state = [] := f.state
  have h3 : g.numFacDim3 = 0 := f.numFacDim3
  rw [hst] at e'
  have hscale' : (start numVariables 0 scale tolerance).scale = scale := rfl
  obtain ⟨hlen, hmin⟩ := hsolver n (by omega) (hproper (nn hscale.le hgood (start_nn _ _ _ _)))
  have hlab2 : ∀ l ∈ (List.range numVariables).map (lab (solver n [])), l < 2 := by
    intro l hl
    simp only [List.mem_map] at hl
    obtain ⟨k, _, rfl⟩ := hl
    unfold lab
    split <;> omega
  refine ⟨g, _, (List.range numVariables).map (lab (solver n [])), e, e', ?_, by simp, hlab2, ?_⟩
  · unfold arg
    simp only [h3]
    rw [if_neg (by simp), if_neg (by omega)]
    have : (if 2 + 0 < (solver n []).length then (solver n []).length - 2 - 0 else 0) = numVariables := by
      rw [hlen, hn]; split <;> omega
    rw [this, readState_spec _ _ (by intro j hj; rw [hlen, hn]; simp at hj; omega)]
  · intro y hy hy2
    have key : ∀ seg : List Bool, n.cutValue seg = scale * (sgn acc * (ts.map (fun t => t.table (t.vars.map (lab seg)))).sum + c) := by
      intro seg; rw [hcut, hp, start_pot, zero_add, hscale']
    have hrange : ∀ t ∈ ts, ∀ v ∈ t.vars, v < numVariables := by
      intro t ht
      obtain ⟨i, hi, rfl⟩ := List.getElem_of_mem ht
      have hi' : i < fs.length := by rw [hf.length_eq]; exact hi
      exact ((List.forall₂_iff_get.mp hf).2 i hi' hi).range
    have hxe : (ts.map (fun t => t.table (t.vars.map (lab (solver n []))))).sum =
        (ts.map (fun t => t.value ((List.range numVariables).map (lab (solver n []))))).sum := by
      congr 1
      apply List.map_congr_left
      intro t ht
      unfold Term.value restrict
      congr 1
      apply List.map_congr_left
      intro v hv
      have hvl := hrange t ht v hv
      simp [hvl]
    have hye : (ts.map (fun t => t.table (t.vars.map (lab (segOf y))))).sum = (ts.map (fun t => t.value y)).sum := by
      congr 1
      apply List.map_congr_left
      intro t ht
      unfold Term.value restrict
      congr 1
      apply List.map_congr_left
      intro v hv
      exact lab_segOf y hy2 v
    have := hmin (segOf y) (by simp [segOf, hy, hn]; omega)
    simp only at this
    rw [key, key, hxe, hye, sgn_signed hacc, sgn_signed hacc] at this
    have := le_of_mul_le_mul_left this hscale
    linarith

/-- Before `infer`, `arg` returns UNKNOWN and fills the vector with as many labels as there are variables. -/
theorem C41_not_inferred [IsStrictOrderedRing V] (acc : Acc) (hacc : acc ≠ .other) (gm : GM V) (p : Problem V) (hb : BuiltModel gm p)
    (h2 : ∀ n ∈ p.numLabels, n = 2) (ho : ∀ t ∈ p.terms, t.vars.length ≤ 2) (scale : V) :
    ∃ g, construct acc gm scale 0 = .ok () (some g) ∧
      arg g [] 1 = some (.unknown, List.replicate p.numLabels.length 0) := by
  obtain ⟨g, e, w, f, _⟩ := construct_spec hacc hb.represents.toStores h2 ho scale 0
    (fun t ht hlen => by
      rw [abs_zero, neg_zero]
      rcases le_or_gt (sgn acc * t.table [0, 0] + sgn acc * t.table [1, 1]) (sgn acc * t.table [0, 1] + sgn acc * t.table [1, 0]) with h | h
      · exact Or.inl h
      · right; linarith)
  refine ⟨g, e, ?_⟩
  have h1 : g.inferenceDone = false := f.inferenceDone
  have h2 : g.numVariables = p.numLabels.length := f.numVariables
  simp [arg, h1, h2, resized]

/-! ### Witnesses -/

/-- Two binary variables: 2·[x0 = 1], 3·[x1 = 0], and 3·[x0 = 0, x1 = 1]. -/
def cutOps : List (BuildOp Int) :=
  [.addVariable 2, .addVariable 2,
   .addFunction 0 ⟨[2], fun c => if c = [1] then 2 else 0⟩, .addFunction 0 ⟨[2], fun c => if c = [0] then 3 else 0⟩,
   .addFunction 0 ⟨[2, 2], fun c => if c = [0, 1] then 3 else 0⟩,
   .addFactor 0 [0], .addFactor 1 [1], .addFactor 2 [0, 1]]

theorem cutOps_valid : ValidHistory 1 Built.empty cutOps := by
  simp [cutOps, ValidHistory, BuildOp.Valid, BuildOp.apply, Built.empty, restrict]

/-- The hypotheses of `C41_graphcut_partial` are met. -/
example : ∃ gm, BuiltModel gm (builtAfter cutOps).problem ∧ (∀ n ∈ (builtAfter cutOps).problem.numLabels, n = 2) ∧
    (∀ t ∈ (builtAfter cutOps).problem.terms, t.vars.length ≤ 2) ∧ (builtAfter cutOps).problem.Submodular ∧
    ∃ solver : Network Int → List Bool → List Bool, ExactSolver (fun n => solver n []) := by
  obtain ⟨gm, hb⟩ := builtModel_exists cutOps_valid
  obtain ⟨s, hs⟩ := exactSolver_exists (V := Int)
  refine ⟨gm, hb, by decide, ?_, ?_, fun n _ => s n, hs⟩
  · intro t ht
    simp [builtAfter, cutOps, BuildOp.apply, Built.empty, Built.problem] at ht
    rcases ht with rfl | rfl | rfl <;> simp
  · intro t ht
    simp [builtAfter, cutOps, BuildOp.apply, Built.empty, Built.problem] at ht
    rcases ht with rfl | rfl | rfl <;> simp

/-- The network that `cutOps` leads to. -/
def cutNetwork (k : Nat) : Network Int :=
  ⟨4, ⟨2, 3, 3⟩ :: (List.replicate k [⟨0, 2, 2⟩, ⟨2, 1, 0⟩, ⟨0, 3, 0⟩, ⟨3, 1, 3⟩]).flatten⟩

theorem minCut_four {n : Network Int} (hn : n.numNodes = 4) {seg : List Bool} (h : n.IsMinCut seg) :
    ∃ a b c d, seg = [a, b, c, d] ∧ ∀ a' b' c' d', n.cutValue [a, b, c, d] ≤ n.cutValue [a', b', c', d'] := by
  obtain ⟨h1, h2⟩ := h
  rw [hn] at h1
  match seg, h1 with
  | [a, b, c, d], _ => exact ⟨a, b, c, d, rfl, fun a' b' c' d' => h2 _ (by simp [hn])⟩

/-- The object that the constructor makes from `cutOps`. -/
def cutGC (k : Nat) (state : List Bool) : GC Int :=
  ⟨0, 1, cutNetwork k, 2, 0, [], state, [2, 0], [0, 3], decide (0 < k)⟩

theorem cutNetwork_proper (k : Nat) : (cutNetwork k).Proper := by
  intro e he
  simp only [cutNetwork, List.mem_cons, List.mem_flatten, List.mem_replicate] at he ⊢
  rcases he with rfl | ⟨l, ⟨_, rfl⟩, he⟩
  · simp
  · simp at he
    rcases he with rfl | rfl | rfl | rfl <;> simp

theorem cutGC_construct (c : Client Int) (h1 : (Client.init 1).run (fun _ _ => false) cutOps = .ok () c) :
    construct .minimizer c.gm 1 0 = .ok () (some (cutGC 0 [])) := by
  cases h1
  rfl

theorem cutGC_infer (solver : Network Int → List Bool → List Bool) (st : List Bool) :
    infer solver (cutGC 0 st) = some (cutGC 1 (solver (cutNetwork 1) st)) ∧
    infer solver (cutGC 1 st) = some (cutGC 2 (solver (cutNetwork 2) st)) := ⟨rfl, rfl⟩

theorem cutNetwork_one (a b c d : Bool) (h : (cutNetwork 1).cutValue [a, b, c, d] ≤ (cutNetwork 1).cutValue [false, true, true, true]) :
    c = true ∧ d = true := by
  revert h
  cases c <;> cases d <;> simp [cutNetwork, Network.cutValue, Edge.crosses, side]

theorem cutNetwork_two (a b c d : Bool) (h : (cutNetwork 2).cutValue [a, b, c, d] ≤ (cutNetwork 2).cutValue [false, true, false, true]) :
    c = false ∧ d = true := by
  revert h
  cases c <;> cases d <;> simp [cutNetwork, Network.cutValue, Edge.crosses, side, List.replicate_succ]

/-- Calling `infer` twice adds the edges of source and sink a second time (lines 376-379), so that they count double: for every
exact solver the second call makes the labeling worse. -/
theorem C41_violated_infer_twice : ∃ (gm : GM Int) (p : Problem Int), BuiltModel gm p ∧ (∀ n ∈ p.numLabels, n = 2) ∧
    (∀ t ∈ p.terms, t.vars.length ≤ 2) ∧ p.Submodular ∧
    ∀ solver : Network Int → List Bool → List Bool, (∀ old, ExactSolver (fun n => solver n old)) →
      ∃ g g1 g2 x1 x2, construct .minimizer gm 1 0 = .ok () (some g) ∧ infer solver g = some g1 ∧ infer solver g1 = some g2 ∧
        arg g1 [] 1 = some (.normal, x1) ∧ arg g2 [] 1 = some (.normal, x2) ∧
        p.energy (sumOp Int) x1 = 2 ∧ p.energy (sumOp Int) x2 = 3 := by
  obtain ⟨c, h1⟩ : ∃ c, (Client.init 1).run (fun _ _ => false) cutOps = .ok () c := ⟨_, rfl⟩
  refine ⟨c.gm, (builtAfter cutOps).problem, ⟨1, _, cutOps, c, eqvSound_false, cutOps_valid, h1, rfl, rfl⟩, by decide, ?_, ?_, ?_⟩
  · intro t ht
    simp [builtAfter, cutOps, BuildOp.apply, Built.empty, Built.problem] at ht
    rcases ht with rfl | rfl | rfl <;> simp
  · intro t ht
    simp [builtAfter, cutOps, BuildOp.apply, Built.empty, Built.problem] at ht
    rcases ht with rfl | rfl | rfl <;> simp
  intro solver hs
  obtain ⟨a, b, c1, d, e1, m1⟩ := minCut_four rfl (hs [] (cutNetwork 1) (by decide) (cutNetwork_proper 1))
  obtain ⟨a', b', c', d', e2, m2⟩ := minCut_four rfl (hs (solver (cutNetwork 1) []) (cutNetwork 2) (by decide) (cutNetwork_proper 2))
  simp only at e1 e2
  have hc := cutNetwork_one _ _ _ _ (m1 false true true true)
  have hc' := cutNetwork_two _ _ _ _ (m2 false true false true)
  obtain ⟨rfl, rfl⟩ := hc
  obtain ⟨rfl, rfl⟩ := hc'
  refine ⟨_, _, _, [1, 1], [0, 1], cutGC_construct c h1, (cutGC_infer solver []).1, (cutGC_infer solver _).2, ?_, ?_, by decide, by decide⟩
  · rw [e1]
    rfl
  · rw [e2]
    rfl

/-! ### Factors of order 3 -/

/-- Three binary variables: 2·[x2 = 1] as a factor of all three variables, and -[x2 = 1]. -/
def tripleOps : List (BuildOp Int) :=
  [.addVariable 2, .addVariable 2, .addVariable 2,
   .addFunction 0 ⟨[2, 2, 2], fun c => if c[2]? = some 1 then 2 else 0⟩, .addFunction 0 ⟨[2], fun c => if c = [1] then -1 else 0⟩,
   .addFactor 0 [0, 1, 2], .addFactor 1 [2]]

theorem tripleOps_valid : ValidHistory 1 Built.empty tripleOps := by
  simp [tripleOps, ValidHistory, BuildOp.Valid, BuildOp.apply, Built.empty, restrict]

def tripleNetwork : Network Int :=
  ⟨6, [⟨3, 3, 0⟩, ⟨3, 2, 0⟩, ⟨2, 3, 0⟩, ⟨2, 5, 0⟩, ⟨3, 5, 0⟩, ⟨3, 5, 0⟩,
    ⟨0, 2, 0⟩, ⟨2, 1, 0⟩, ⟨0, 3, 2⟩, ⟨3, 1, 0⟩, ⟨0, 4, 0⟩, ⟨4, 1, 1⟩, ⟨0, 5, 0⟩, ⟨5, 1, 0⟩]⟩

theorem triple_construct (c : Client Int) (h1 : (Client.init 1).run (fun _ _ => false) tripleOps = .ok () c)
    (solver : Network Int → List Bool → List Bool) :
    ∃ g, construct .minimizer c.gm 1 0 = .ok () (some g) ∧
      infer solver g = some ⟨0, 1, tripleNetwork, 3, 1, [(0, 1, 1)], solver tripleNetwork [], [0, 2, 0, 0], [0, 0, 1, 0], true⟩ := by
  cases h1
  exact ⟨⟨0, 1, ⟨6, [⟨3, 3, 0⟩, ⟨3, 2, 0⟩, ⟨2, 3, 0⟩, ⟨2, 5, 0⟩, ⟨3, 5, 0⟩, ⟨3, 5, 0⟩]⟩, 3, 1, [(0, 1, 1)], [], [0, 2, 0, 0],
    [0, 0, 1, 0], false⟩, rfl, rfl⟩

theorem tripleNetwork_min (a b x0 x1 x2 z : Bool)
    (h : tripleNetwork.cutValue [a, b, x0, x1, x2, z] ≤ tripleNetwork.cutValue [false, true, false, false, true, false]) : x2 = true := by
  revert h
  cases x0 <;> cases x1 <;> cases x2 <;> cases z <;> simp [tripleNetwork, Network.cutValue, Edge.crosses, side]

/-- The third variable index of a factor of order 3 is read from position 1 (line 251), so that terms that belong to the
third variable are added to the second one: for every exact solver the result is not optimal, although the factor of order 3
is submodular (it is linear). -/
theorem C41_violated_order3 : ∃ (gm : GM Int) (p : Problem Int), BuiltModel gm p ∧ (∀ n ∈ p.numLabels, n = 2) ∧
    (∀ t ∈ p.terms, t.vars.length ≤ 3) ∧
    (∀ t ∈ p.terms, ∀ c c' : List Nat, InShape (List.replicate t.vars.length 2) c → InShape (List.replicate t.vars.length 2) c' →
      t.table (List.zipWith min c c') + t.table (List.zipWith max c c') = t.table c + t.table c') ∧
    ∀ solver : Network Int → List Bool → List Bool, ExactSolver (fun n => solver n []) →
      ∃ g g' x, construct .minimizer gm 1 0 = .ok () (some g) ∧ infer solver g = some g' ∧ arg g' [] 1 = some (.normal, x) ∧
        p.energy (sumOp Int) x = 1 ∧ p.Labeling [0, 0, 0] ∧ p.energy (sumOp Int) [0, 0, 0] = 0 := by
  obtain ⟨c, h1⟩ : ∃ c, (Client.init 1).run (fun _ _ => false) tripleOps = .ok () c := ⟨_, rfl⟩
  refine ⟨c.gm, (builtAfter tripleOps).problem, ⟨1, _, tripleOps, c, eqvSound_false, tripleOps_valid, h1, rfl, rfl⟩, by decide, ?_, ?_, ?_⟩
  · intro t ht
    simp [builtAfter, tripleOps, BuildOp.apply, Built.empty, Built.problem] at ht
    rcases ht with rfl | rfl <;> simp
  · intro t ht c c' hc hc'
    simp [builtAfter, tripleOps, BuildOp.apply, Built.empty, Built.problem] at ht
    rcases ht with rfl | rfl
    · match c, c', hc, hc' with
      | [x, y, z], [x', y', z'], hc, hc' =>
        simp [List.replicate_succ, InShape] at hc hc' ⊢
        have hz : z = 0 ∨ z = 1 := by omega
        have hz' : z' = 0 ∨ z' = 1 := by omega
        rcases hz with rfl | rfl <;> rcases hz' with rfl | rfl <;> simp
    · match c, c', hc, hc' with
      | [z], [z'], hc, hc' =>
        simp [List.replicate_succ, InShape] at hc hc' ⊢
        have hz : z = 0 ∨ z = 1 := by omega
        have hz' : z' = 0 ∨ z' = 1 := by omega
        rcases hz with rfl | rfl <;> rcases hz' with rfl | rfl <;> simp
  intro solver hs
  have hp : tripleNetwork.Proper := by
    intro e he
    simp [tripleNetwork] at he ⊢
    rcases he with rfl | rfl | rfl | rfl | rfl | rfl | rfl | rfl | rfl | rfl | rfl | rfl | rfl <;> simp
  obtain ⟨hlen, hmin⟩ := hs tripleNetwork (by decide) hp
  obtain ⟨g, e1, e2⟩ := triple_construct c h1 solver
  simp only at hlen hmin
  generalize hst : solver tripleNetwork [] = st at *
  match st, hlen with
  | [a, b, x0, x1, x2, z], _ =>
    have := hmin [false, true, false, false, true, false] rfl
    have hx2 : x2 = true := tripleNetwork_min _ _ _ _ _ _ this
    subst hx2
    refine ⟨g, _, [if x0 then 1 else 0, if x1 then 1 else 0, 1], e1, e2, ?_, ?_, ?_, by decide⟩
    · rfl
    · cases x0 <;> cases x1 <;> rfl
    · refine ⟨rfl, ?_⟩
      have hnl : (builtAfter tripleOps).problem.numLabels = [2, 2, 2] := by decide
      rw [hnl]
      intro v l n hl hn
      match v with
      | 0 => simp at hl hn; omega
      | 1 => simp at hl hn; omega
      | 2 => simp at hl hn; omega
      | v + 3 => simp at hl

/-- Five binary variables and five factors of order 3 on different triples. -/
def fiveOps : List (BuildOp Int) :=
  List.replicate 5 (.addVariable 2) ++ [.addFunction 0 ⟨[2, 2, 2], fun _ => 0⟩,
    .addFactor 0 [0, 1, 2], .addFactor 0 [0, 2, 3], .addFactor 0 [0, 3, 4], .addFactor 0 [1, 2, 3], .addFactor 0 [1, 3, 4]]

theorem fiveOps_valid : ValidHistory 1 Built.empty fiveOps := by
  simp [fiveOps, ValidHistory, BuildOp.Valid, BuildOp.apply, Built.empty, restrict]

/-- `tripleId` counts up `numVariables_` instead of its own counter (line 357), so that the identifiers of the auxiliary nodes
leave the graph: with five factors of order 3 the constructor writes out of range. -/
theorem C41_violated_order3_range : ∃ (gm : GM Int) (p : Problem Int), BuiltModel gm p ∧ (∀ n ∈ p.numLabels, n = 2) ∧
    (∀ t ∈ p.terms, t.vars.length ≤ 3 ∧ ∀ c, t.table c = 0) ∧ construct .minimizer gm 1 0 = .ub := by
  obtain ⟨c, h1⟩ : ∃ c, (Client.init 1).run (fun _ _ => false) fiveOps = .ok () c := ⟨_, rfl⟩
  refine ⟨c.gm, (builtAfter fiveOps).problem, ⟨1, _, fiveOps, c, eqvSound_false, fiveOps_valid, h1, rfl, rfl⟩, by decide, ?_, ?_⟩
  · intro t ht
    simp [builtAfter, fiveOps, BuildOp.apply, Built.empty, Built.problem] at ht
    rcases ht with rfl | rfl | rfl | rfl | rfl <;> simp
  · cases h1
    rfl

end GraphCut
end OpenGM
