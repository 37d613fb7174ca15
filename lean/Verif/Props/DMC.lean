import Verif.Lemmas.DMC
import Verif.Props.PartitionMove
import Mathlib.Data.Fintype.Pi
import Mathlib.Data.Finset.Max
/-
C94: the decomposition of multicut problems.
-/
namespace OpenGM
namespace DMC
open Spec Spec.Multicut
open PartitionMove (ne)

variable {gm : GM ℚ} {p : Problem ℚ}

/-- The first variable of a term. -/
def uOf (p : Problem ℚ) (j : Nat) : Nat := (p.terms[j]?.map (fun t => t.vars.getD 0 0)).getD 0
/-- The second variable of a term. -/
def vOf (p : Problem ℚ) (j : Nat) : Nat := (p.terms[j]?.map (fun t => t.vars.getD 1 0)).getD 0
/-- The weight of a term. -/
def wOf (p : Problem ℚ) (j : Nat) : ℚ := (p.terms[j]?.map Multicut.weight).getD 0

theorem at_term {j : Nat} {t : Term ℚ} (h : p.terms[j]? = some t) : uOf p j = t.vars.getD 0 0 ∧ vOf p j = t.vars.getD 1 0 ∧ wOf p j = Multicut.weight t := by
  unfold uOf vOf wOf
  rw [h]
  exact ⟨rfl, rfl, rfl⟩

theorem vars_of_two {t : Term ℚ} (h : t.vars.length = 2) : t.vars = [t.vars.getD 0 0, t.vars.getD 1 0] := by
  match hv : t.vars, h with
  | [a, b], _ => rfl

theorem term_pair (hb : BuiltModel gm p) (h2 : ∀ t ∈ p.terms, t.vars.length = 2) {j : Nat} {t : Term ℚ} (ht : p.terms[j]? = some t) :
    t.vars = [uOf p j, vOf p j] ∧ uOf p j < vOf p j ∧ vOf p j < p.numLabels.length := by
  have hr := hb.represents
  obtain ⟨f, f1, f2⟩ := DP.factor_at hr.toStores ht
  obtain ⟨e1, e2, _⟩ := at_term ht
  have hv := vars_of_two (h2 t (List.mem_of_getElem? ht))
  rw [← e1, ← e2] at hv
  have hs := f2.sorted
  have hrg := f2.range (vOf p j) (by rw [hv]; simp)
  rw [hv] at hs
  rw [hr.labels] at hrg
  refine ⟨hv, by simpa using hs, hrg⟩

theorem data (hb : BuiltModel gm p) (hp : IsPartitionProblem p) (h2 : ∀ t ∈ p.terms, t.vars.length = 2) :
    Data gm p.numLabels.length p.terms.length (uOf p) (vOf p) (wOf p) := by
  have hr := hb.represents
  have hlab : ∀ a, a < p.numLabels.length → p.numLabels.length ≤ p.numLabels.getD a 0 := by
    intro a ha
    rw [List.getD_eq_getElem?_getD, List.getElem?_eq_getElem ha]
    exact hp.labels _ (List.getElem_mem ha)
  refine ⟨by rw [GM.numberOfVariables, hr.labels], hr.factors.length_eq, ?_, ?_, ?_⟩
  · intro j hj
    have ht : p.terms[j]? = some p.terms[j] := List.getElem?_eq_getElem hj
    obtain ⟨f, f1, f2⟩ := DP.factor_at hr.toStores ht
    obtain ⟨e1, e2, e3⟩ := term_pair hb h2 ht
    have hsz : f.visSize = 2 := by rw [f2.visSize, e1]; rfl
    refine ⟨f, f1, hsz, ?_, ?_, ?_⟩
    · rw [f2.visAt 0 (by omega), e1]; rfl
    · rw [f2.visAt 1 (by omega), e1]; rfl
    · have hu := hlab (uOf p j) (by omega)
      have hv := hlab (vOf p j) e3
      have hne : p.terms[j].vars ≠ [] := by rw [e1]; simp
      unfold weight
      rw [DP.callFactor_at hr.toStores f2 (c := [0, 0]) (by
          rw [e1]
          exact (show InShape [p.numLabels.getD (uOf p j) 0, p.numLabels.getD (vOf p j) 0] [0, 0] from ⟨by omega, by omega, trivial⟩)) hne,
        DP.callFactor_at hr.toStores f2 (c := [0, 1]) (by
          rw [e1]
          exact (show InShape [p.numLabels.getD (uOf p j) 0, p.numLabels.getD (vOf p j) 0] [0, 1] from ⟨by omega, by omega, trivial⟩)) hne]
      rw [(at_term ht).2.2]
      rfl
  · intro j hj
    obtain ⟨_, e2, e3⟩ := term_pair hb h2 (List.getElem?_eq_getElem hj)
    exact ⟨by omega, e3⟩
  · intro a ha
    refine ⟨_, hr.adj a (by rw [hr.labels]; exact ha), ?_⟩
    intro j
    rw [List.mem_filter, List.mem_range]
    constructor
    · rintro ⟨hj, hm⟩
      refine ⟨hj, ?_⟩
      have ht : p.terms[j]? = some p.terms[j] := List.getElem?_eq_getElem hj
      unfold mentions at hm
      rw [ht] at hm
      simp only [decide_eq_true_eq] at hm
      rw [(term_pair hb h2 ht).1] at hm
      simp only [List.mem_cons, List.not_mem_nil, or_false] at hm
      exact hm.imp Eq.symm Eq.symm
    · rintro ⟨hj, hm⟩
      refine ⟨hj, ?_⟩
      have ht : p.terms[j]? = some p.terms[j] := List.getElem?_eq_getElem hj
      unfold mentions
      rw [ht]
      simp only [decide_eq_true_eq]
      rw [(term_pair hb h2 ht).1]
      simp only [List.mem_cons, List.not_mem_nil, or_false]
      exact hm.imp Eq.symm Eq.symm

theorem energy_S (hb : BuiltModel gm p) (hp : IsPartitionProblem p) (h2 : ∀ t ∈ p.terms, t.vars.length = 2) {y : List Nat} (hy : p.Labeling y) :
    p.energy (sumOp ℚ) y = (p.terms.map (fun t => t.table [0, 0])).sum + S (uOf p) (vOf p) (wOf p) (List.range p.terms.length) (fun a => y.getD a 0) := by
  rw [PartitionMove.energy_sum]
  have hS : S (uOf p) (vOf p) (wOf p) (List.range p.terms.length) (fun a => y.getD a 0) =
      (p.terms.map (fun t => Multicut.weight t * ne (y.getD (t.vars.getD 0 0) 0) (y.getD (t.vars.getD 1 0) 0))).sum := by
    unfold S
    congr 1
    apply List.ext_getElem
    · simp
    · intro i h1 h2
      have hi : i < p.terms.length := by simpa using h1
      obtain ⟨e1, e2, e3⟩ := at_term (p := p) (List.getElem?_eq_getElem hi)
      simp only [List.getElem_map, List.getElem_range]
      rw [e1, e2, e3]
  rw [hS, ← List.sum_map_add]
  congr 1
  apply List.map_congr_left
  intro t ht
  obtain ⟨j, hj, rfl⟩ := List.mem_iff_getElem.mp ht
  have htj : p.terms[j]? = some p.terms[j] := List.getElem?_eq_getElem hj
  obtain ⟨e1, e2, e3⟩ := term_pair hb h2 htj
  obtain ⟨a1, a2, _⟩ := at_term htj
  have hlab : ∀ a, a < p.numLabels.length → p.numLabels.length ≤ p.numLabels.getD a 0 := by
    intro a ha
    rw [List.getD_eq_getElem?_getD, List.getElem?_eq_getElem ha]
    exact hp.labels _ (List.getElem_mem ha)
  have hyl : ∀ a, a < p.numLabels.length → y.getD a 0 < p.numLabels.getD a 0 := by
    intro a ha
    have ha' : a < y.length := by rw [hy.1]; exact ha
    have := hy.2 a _ _ (List.getElem?_eq_getElem ha') (List.getElem?_eq_getElem ha)
    rw [List.getD_eq_getElem?_getD, List.getD_eq_getElem?_getD, List.getElem?_eq_getElem ha', List.getElem?_eq_getElem ha]
    exact this
  have hpt : IsPottsTable [p.numLabels.getD (uOf p j) 0, p.numLabels.getD (vOf p j) 0] p.terms[j].table := by
    rcases hp.terms _ ht with h | ⟨_, h⟩
    · rw [e1] at h; simp at h
    · rw [e1] at h; exact h
  have hu := hlab (uOf p j) (by omega)
  have hv := hlab (vOf p j) e3
  have := PartitionMove.table_ne hpt (by omega) (by omega) (hyl _ (by omega)) (hyl _ e3)
  rw [← a1, ← a2]
  unfold Term.value
  rw [e1]
  exact this

/-- A function that no merged pair changes is constant on classes. -/
theorem const_of_equiv {s : Merged} {β : Type} (g : Nat → β) (h : ∀ q ∈ s.pairs, g q.1 = g q.2) {a b : Nat} (hab : s.Equiv a b) : g a = g b := by
  induction hab with
  | rel x y hxy => exact h _ hxy
  | refl x => rfl
  | symm x y _ ih => exact ih.symm
  | trans x y z _ _ ih1 ih2 => exact ih1.trans ih2

theorem pairs_of (n : Nat) (us vs : Nat → Nat) (l : List Nat) : ∀ (s : Merged), ((l.map (fun j => PartitionOp.merge (us j) (vs j))).foldl PartitionOp.apply s).pairs = s.pairs ++ l.map (fun j => (us j, vs j)) ∧
    ((l.map (fun j => PartitionOp.merge (us j) (vs j))).foldl PartitionOp.apply s).n = s.n := by
  induction l with
  | nil => intro s; simp
  | cons j l ih =>
    intro s
    obtain ⟨h1, h2⟩ := ih (PartitionOp.apply s (.merge (us j) (vs j)))
    simp only [List.map_cons, List.foldl_cons]
    rw [h1, h2]
    simp [PartitionOp.apply]

theorem valid_of (us vs : Nat → Nat) (l : List Nat) : ∀ (s : Merged), (∀ j ∈ l, us j < s.n ∧ vs j < s.n) → ValidPartitionHistory s (l.map (fun j => PartitionOp.merge (us j) (vs j))) := by
  induction l with
  | nil => intro s _; trivial
  | cons j l ih =>
    intro s h
    exact ⟨h j (by simp), ih _ (fun i hi => h i (by simp [hi]))⟩

/-- C94: DMC finds an optimal labeling of every multicut problem (a partition problem all of whose factors have two variables), if the solver of the subproblems is exact,
the threshold is not positive, and for every factor whose weight is above the threshold the total weight of the factors with the same variables is not negative
(for instance, if no two factors have the same variables and no weight is between the threshold and 0). -/
theorem C94_optimal_partial (hb : BuiltModel gm p) (hp : IsPartitionProblem p) (h2 : ∀ t ∈ p.terms, t.vars.length = 2) {threshold : ℚ} (ht0 : threshold ≤ 0)
    (hpair : ∀ t ∈ p.terms, threshold < Multicut.weight t → 0 ≤ totalWeight p t.vars) {solver : Nat → List Edge → List Nat} (hs : Exact solver) {whole : List Nat}
    (hwl : p.Labeling whole) (hw : ∀ y, p.Labeling y → p.energy (sumOp ℚ) whole ≤ p.energy (sumOp ℚ) y) :
    ∃ x, infer gm threshold solver whole (construct gm) = .ok x () ∧ p.Labeling x ∧ ∀ y, p.Labeling y → p.energy (sumOp ℚ) x ≤ p.energy (sumOp ℚ) y := by
  have d := data hb hp h2
  generalize hn : p.numLabels.length = n at d
  generalize hm : p.terms.length = m at d
  have huv : ∀ j, j < m → uOf p j ≠ vOf p j := by
    intro j hj
    have := (term_pair hb h2 (List.getElem?_eq_getElem (hm ▸ hj))).2.1
    omega
  let jl := (List.range m).filter (fun j => decide (wOf p j > threshold))
  have hjl : ∀ j, j ∈ jl ↔ j < m ∧ threshold < wOf p j := by intro j; simp [jl]
  have hvalid : ValidPartitionHistory ⟨n, []⟩ (merges (uOf p) (vOf p) (wOf p) threshold (List.range m)) :=
    valid_of _ _ jl _ (fun j hj => d.range j ((hjl j).mp hj).1)
  obtain ⟨P, L, hrun, hL, hLlen, hLeq, hLmem⟩ := Partition.C31_elementLabeling n _ hvalid
  have hpairs : (Partition.mergedAfter n (merges (uOf p) (vOf p) (wOf p) threshold (List.range m))).pairs = jl.map (fun j => (uOf p j, vOf p j)) := by
    have := (pairs_of n (uOf p) (vOf p) jl ⟨n, []⟩).1
    simpa [Partition.mergedAfter, merges, jl] using this
  have hnn : (Partition.mergedAfter n (merges (uOf p) (vOf p) (wOf p) threshold (List.range m))).n = n := (pairs_of n (uOf p) (vOf p) jl ⟨n, []⟩).2
  rw [hnn] at hLlen
  have hdec : decompose gm threshold gm.factors (Partition.ofSize n) = .ok P () := by
    refine decompose_spec gm threshold (uOf p) (vOf p) (wOf p) (List.range m) gm.factors _ P (by simp [d.nfac]) ?_ hrun
    intro i hi
    have hi' : i < m := by simpa using hi
    obtain ⟨f, f1, f2⟩ := d.fac i hi'
    exact ⟨f, i, f1, by simp [hi'], f2⟩
  unfold infer
  rw [d.nvars, hdec]
  simp only
  by_cases h1 : P.numberOfSets = 1
  · rw [if_pos h1]
    exact ⟨whole, rfl, hwl, hw⟩
  rw [if_neg h1, hL]
  simp only
  let comp : Nat → Nat := fun a => L.getD a 0
  have hLget : ∀ a, a < n → L[a]? = some (comp a) := by
    intro a ha
    simp only [comp]
    rw [List.getD_eq_getElem?_getD, List.getElem?_eq_getElem (by omega)]
    rfl
  have hcompK : ∀ a, a < n → comp a < P.numberOfSets := by
    intro a ha
    rw [← hLmem]
    exact List.mem_of_getElem? (hLget a ha)
  have hsub : ∀ k a, a ∈ subVar L k ↔ a < n ∧ comp a = k := by
    intro k a
    simp only [subVar, List.mem_filter, List.mem_range, decide_eq_true_eq, hLlen]
    constructor
    · rintro ⟨h, h'⟩
      rw [hLget a h] at h'
      exact ⟨h, Option.some.inj h'⟩
    · rintro ⟨h, h'⟩
      exact ⟨h, by rw [hLget a h, h']⟩
  have hused : usedFactors gm L = some ((List.range m).map (fun j => decide (comp (uOf p j) ≠ comp (vOf p j)))) := by
    have hfac : gm.factors = (List.range m).map (fun j => gm.factors.getD j ⟨0, 0, 0, 0⟩) := by
      apply List.ext_getElem
      · simp [d.nfac]
      · intro i a b
        simp only [List.getElem_map, List.getElem_range, List.getD_eq_getElem?_getD]
        rw [List.getElem?_eq_getElem a]
        rfl
    unfold usedFactors
    rw [hfac, List.mapM_map]
    apply mapM_some
    intro j hj
    have hj' : j < m := List.mem_range.mp hj
    obtain ⟨f, f1, f2, f3, f4, f5⟩ := d.fac j hj'
    obtain ⟨r1, r2⟩ := d.range j hj'
    have hf : gm.factors.getD j ⟨0, 0, 0, 0⟩ = f := by rw [List.getD_eq_getElem?_getD, f1]; rfl
    simp only [Function.comp]
    rw [hf, f3, f4]
    simp only [Option.bind_some]
    rw [hLget _ r1, hLget _ r2]
  rw [hused]
  simp only
  -- edges between components do not cost anything
  have hcross : ∀ j, j < m → comp (uOf p j) ≠ comp (vOf p j) → wOf p j ≤ 0 := by
    intro j hj hne
    by_contra hpos
    apply hne
    obtain ⟨r1, r2⟩ := d.range j hj
    refine (hLeq _ _ _ _ (hLget _ r1) (hLget _ r2)).mpr ?_
    apply Relation.EqvGen.rel
    rw [hpairs, List.mem_map]
    exact ⟨j, (hjl j).mpr ⟨hj, by linarith [not_le.mp hpos]⟩, rfl⟩
  -- components of two variables
  have htwo : ∀ k, ∀ y, (subVar L k).length = 2 → 0 ≤ S (uOf p) (vOf p) (wOf p) (inner m (uOf p) (vOf p) (subVar L k)) y := by
    intro k y hk
    obtain ⟨a, b, hab⟩ := List.length_eq_two.mp hk
    have hlt : a < b := by
      have : (subVar L k).Pairwise (· < ·) := List.Pairwise.filter _ List.pairwise_lt_range
      rw [hab] at this
      simpa using this
    have hma := (hsub k a).mp (by rw [hab]; simp)
    have hmb := (hsub k b).mp (by rw [hab]; simp)
    -- some factor connects them
    obtain ⟨j0, hj0, hu0, hv0⟩ : ∃ j, j ∈ jl ∧ uOf p j = a ∧ vOf p j = b := by
      by_contra hno
      have heq := (hLeq _ _ _ _ (hLget a hma.1) (hLget b hmb.1)).mp (hma.2.trans hmb.2.symm)
      have hconst := const_of_equiv (fun q => decide (q = a)) (by
        intro q hq
        rw [hpairs, List.mem_map] at hq
        obtain ⟨j, hj, rfl⟩ := hq
        have hjm := ((hjl j).mp hj).1
        obtain ⟨r1, r2⟩ := d.range j hjm
        have hjlt : uOf p j < vOf p j := (term_pair hb h2 (List.getElem?_eq_getElem (hm ▸ hjm))).2.1
        have hcc : comp (uOf p j) = comp (vOf p j) := by
          refine (hLeq _ _ _ _ (hLget _ r1) (hLget _ r2)).mpr (Relation.EqvGen.rel _ _ ?_)
          rw [hpairs, List.mem_map]
          exact ⟨j, hj, rfl⟩
        have hin : ∀ q, comp q = k → q < n → q = a ∨ q = b := by
          intro q h h'
          have := (hsub k q).mpr ⟨h', h⟩
          rw [hab] at this
          simpa using this
        by_cases hua : uOf p j = a
        · exfalso
          rcases hin (vOf p j) (by rw [← hcc, hua]; exact hma.2) r2 with h | h
          · omega
          · exact hno ⟨j, hj, hua, h⟩
        · by_cases hva : vOf p j = a
          · exfalso
            rcases hin (uOf p j) (by rw [hcc, hva]; exact hma.2) r1 with h | h
            · exact hua h
            · omega
          · simp [hua, hva]) heq
      simp at hconst
      omega
    obtain ⟨hj0m, hj0w⟩ := (hjl j0).mp hj0
    have ht0' : p.terms[j0]? = some p.terms[j0] := List.getElem?_eq_getElem (hm ▸ hj0m)
    have hvars0 := (term_pair hb h2 ht0').1
    rw [hu0, hv0] at hvars0
    have htot := hpair p.terms[j0] (List.getElem_mem _) (by rw [← (at_term ht0').2.2]; exact hj0w)
    rw [hvars0] at htot
    have hinner : ∀ j, j < m → (decide (uOf p j ∈ subVar L k ∧ vOf p j ∈ subVar L k) = decide (uOf p j = a ∧ vOf p j = b)) := by
      intro j hj
      have hjlt : uOf p j < vOf p j := (term_pair hb h2 (List.getElem?_eq_getElem (hm ▸ hj))).2.1
      rw [hab, decide_eq_decide]
      simp only [List.mem_cons, List.not_mem_nil, or_false]
      omega
    have hS : S (uOf p) (vOf p) (wOf p) (inner m (uOf p) (vOf p) (subVar L k)) y = totalWeight p [a, b] * ne (y a) (y b) := by
      have hfil : inner m (uOf p) (vOf p) (subVar L k) = (List.range m).filter (fun j => decide (uOf p j = a ∧ vOf p j = b)) :=
        List.filter_congr (fun j hj => hinner j (List.mem_range.mp hj))
      have h3 : totalWeight p [a, b] = (((List.range m).filter (fun j => decide (uOf p j = a ∧ vOf p j = b))).map (wOf p)).sum := by
        have hterms : p.terms = (List.range m).map (fun j => p.terms.getD j ⟨[], fun _ => 0⟩) := by
          apply List.ext_getElem
          · simp [hm]
          · intro i q1 q2
            simp only [List.getElem_map, List.getElem_range, List.getD_eq_getElem?_getD]
            rw [List.getElem?_eq_getElem q1]
            rfl
        unfold totalWeight
        rw [hterms, List.filter_map, List.map_map]
        congr 1
        have hT : ∀ j, j < m → ∃ t, p.terms[j]? = some t ∧ p.terms.getD j ⟨[], fun _ => 0⟩ = t := by
          intro j hj
          refine ⟨p.terms[j], List.getElem?_eq_getElem (hm ▸ hj), ?_⟩
          rw [List.getD_eq_getElem?_getD, List.getElem?_eq_getElem (hm ▸ hj)]
          rfl
        have hff : (List.range m).filter ((fun t : Term ℚ => decide (t.vars = [a, b])) ∘ fun j => p.terms.getD j ⟨[], fun _ => 0⟩) =
            (List.range m).filter (fun j => decide (uOf p j = a ∧ vOf p j = b)) := by
          apply List.filter_congr
          intro j hj
          obtain ⟨t, t1, t2⟩ := hT j (List.mem_range.mp hj)
          show decide ((p.terms.getD j ⟨[], fun _ => 0⟩).vars = [a, b]) = _
          rw [decide_eq_decide, t2, (term_pair hb h2 t1).1]
          simp
        rw [hff]
        apply List.map_congr_left
        intro j hj
        obtain ⟨t, t1, t2⟩ := hT j (List.mem_range.mp (List.mem_filter.mp hj).1)
        simp only [Function.comp]
        rw [t2, (at_term t1).2.2]
      rw [hfil, h3]
      unfold S
      rw [← List.sum_map_mul_right, ]
      congr 1
      apply List.map_congr_left
      intro j hj
      have := (List.mem_filter.mp hj).2
      simp only [decide_eq_true_eq] at this
      rw [this.1, this.2]
    rw [hS]
    apply mul_nonneg htot
    unfold PartitionMove.ne
    split <;> norm_num
  obtain ⟨x, x1, x2, x3, x4, x5, x6⟩ := subLoop_spec d huv hs ((List.range P.numberOfSets).map (subVar L)) 0
    ((List.range m).map (fun j => decide (comp (uOf p j) ≠ comp (vOf p j)))) (construct gm)
    (by
      intro vs hvs
      obtain ⟨k, _, rfl⟩ := List.mem_map.mp hvs
      exact ⟨List.Nodup.filter _ List.nodup_range, fun a ha => ((hsub k a).mp ha).1, htwo k⟩)
    (by
      rw [List.pairwise_map]
      refine List.Pairwise.imp ?_ (List.nodup_range (n := P.numberOfSets))
      intro k k' hk a ha ha'
      exact hk (((hsub k a).mp ha).2.symm.trans ((hsub k' a).mp ha').2))
    (by simp)
    (by
      intro vs hvs j hj hor
      obtain ⟨k, _, rfl⟩ := List.mem_map.mp hvs
      obtain ⟨r1, r2⟩ := d.range j hj
      have hjm : (List.range m)[j]? = some j := by simp [hj]
      rw [List.getElem?_map, hjm]
      simp only [Option.map_some, Option.some.injEq, decide_eq_false_iff_not, not_not]
      rw [hsub, hsub] at hor ⊢
      rcases hor with h | h
      · exact ⟨fun e => ⟨h, r2, e ▸ h.2⟩, fun e => e.1.2.trans e.2.2.symm⟩
      · exact ⟨fun e => ⟨⟨r1, e.trans h.2⟩, h⟩, fun e => e.1.2.trans e.2.2.symm⟩)
    (by simp [construct, d.nvars])
  rw [x1]
  simp only
  have hflat : ∀ a, a ∈ ((List.range P.numberOfSets).map (subVar L)).flatten ↔ a < n := by
    intro a
    simp only [List.mem_flatten, List.mem_map, List.mem_range]
    constructor
    · rintro ⟨_, ⟨k, _, rfl⟩, ha⟩
      exact ((hsub k a).mp ha).1
    · intro ha
      exact ⟨_, ⟨comp a, hcompK a ha, rfl⟩, (hsub _ a).mpr ⟨ha, rfl⟩⟩
  have hflatlen : ((List.range P.numberOfSets).map (subVar L)).flatten.length ≤ n := by
    have hnd : ((List.range P.numberOfSets).map (subVar L)).flatten.Nodup := by
      rw [List.nodup_flatten]
      refine ⟨?_, ?_⟩
      · intro vs hvs
        obtain ⟨k, _, rfl⟩ := List.mem_map.mp hvs
        exact List.Nodup.filter _ List.nodup_range
      · rw [List.pairwise_map]
        refine List.Pairwise.imp ?_ (List.nodup_range (n := P.numberOfSets))
        intro k k' hk a ha ha'
        exact hk (((hsub k a).mp ha).2.symm.trans ((hsub k' a).mp ha').2)
    have := List.Subperm.length_le (List.subperm_of_subset hnd (l₂ := List.range n) (fun a ha => List.mem_range.mpr ((hflat a).mp ha)))
    simpa using this
  have hxlab : p.Labeling x := by
    refine ⟨by rw [x2, hn], ?_⟩
    intro a l q hl hq
    have ha : a < p.numLabels.length := (List.getElem?_eq_some_iff.mp hq).1
    have h3 := (x4 a ((hflat a).mpr (by omega))).2
    have h4 : p.numLabels.length ≤ q := hp.labels _ (List.mem_of_getElem? hq)
    have h5 : x.getD a 0 = l := by rw [List.getD_eq_getElem?_getD, hl]; rfl
    omega
  refine ⟨x, rfl, hxlab, ?_⟩
  intro y hy
  rw [energy_S hb hp h2 hxlab, energy_S hb hp h2 hy, hm]
  apply add_le_add (le_refl _)
  apply optimal_of_components comp P.numberOfSets
  · intro j hj
    exact hcompK _ (d.range j (List.mem_range.mp hj)).1
  · intro j hj hne
    have hj' := List.mem_range.mp hj
    obtain ⟨r1, r2⟩ := d.range j hj'
    refine ⟨hcross j hj' hne, ?_⟩
    rw [List.pairwise_map] at x6
    rcases Nat.lt_or_gt_of_ne hne with hlt | hlt
    · exact List.pairwise_iff_getElem.mp x6 (comp (uOf p j)) (comp (vOf p j)) (by simpa using hcompK _ r1) (by simpa using hcompK _ r2) hlt _
        ((hsub _ _).mpr ⟨r1, by simp⟩) _ ((hsub _ _).mpr ⟨r2, by simp⟩)
    · exact (List.pairwise_iff_getElem.mp x6 (comp (vOf p j)) (comp (uOf p j)) (by simpa using hcompK _ r2) (by simpa using hcompK _ r1) hlt _
        ((hsub _ _).mpr ⟨r2, by simp⟩) _ ((hsub _ _).mpr ⟨r1, by simp⟩)).symm
  · intro k hk z
    have hfil : (List.range m).filter (fun j => decide (comp (uOf p j) = k ∧ comp (vOf p j) = k)) = inner m (uOf p) (vOf p) (subVar L k) := by
      apply List.filter_congr
      intro j hj
      obtain ⟨r1, r2⟩ := d.range j (List.mem_range.mp hj)
      rw [decide_eq_decide, hsub, hsub]
      exact ⟨fun h => ⟨⟨r1, h.1⟩, r2, h.2⟩, fun h => ⟨h.1.2, h.2.2⟩⟩
    rw [hfil]
    exact x5 _ (List.mem_map.mpr ⟨k, List.mem_range.mpr hk, rfl⟩) z

/-! ### concrete cases -/

/-- There is an exact solver. -/
theorem exists_exact : ∃ solver, Exact solver := by
  have h : ∀ (m : Nat) (es : List (Nat × Nat × ℚ)), ∃ z : List Nat, z.length = m ∧ (∀ l ∈ z, l < m) ∧ ∀ z' : List Nat, z'.length = m → (∀ l ∈ z', l < m) → cutWeight es z ≤ cutWeight es z' := by
    intro m es
    obtain ⟨g, _, hg⟩ := Finset.exists_min_image Finset.univ (fun g : Fin m → Fin m => cutWeight es (List.ofFn (fun i => (g i : Nat)))) ⟨id, Finset.mem_univ _⟩
    refine ⟨List.ofFn (fun i => (g i : Nat)), by simp, ?_, ?_⟩
    · intro l hl
      rw [List.mem_ofFn] at hl
      obtain ⟨i, rfl⟩ := hl
      exact (g i).2
    · intro z' hl hs
      subst hl
      have := hg (fun i => ⟨z'[i], hs _ (List.getElem_mem _)⟩) (Finset.mem_univ _)
      simpa using this
  choose solver h1 h2 h3 using h
  exact ⟨solver, ⟨h1, h2, h3⟩⟩

open PartitionMove (gmAfter)

/-- A Potts function of two variables with four labels. -/
def potts4 (w : ℚ) : Fn ℚ := ⟨[4, 4], fun c => if c[0]? = c[1]? then 0 else w⟩

/-- Four variables, a triangle of weights 1, 1 and -5 and an edge of weight -2 to the fourth variable. -/
def demoOps : List (BuildOp ℚ) :=
  [.addVariable 4, .addVariable 4, .addVariable 4, .addVariable 4, .addFunction 0 (potts4 1), .addFunction 0 (potts4 (-5)), .addFunction 0 (potts4 (-2)),
   .addFactor 0 [0, 1], .addFactor 0 [1, 2], .addFactor 1 [0, 2], .addFactor 2 [2, 3]]

/-- Four variables, two factors of weights 1 and -5 for the variables 0 and 1, and a factor of weight -2 for 2 and 3. -/
def twiceOps : List (BuildOp ℚ) :=
  [.addVariable 4, .addVariable 4, .addVariable 4, .addVariable 4, .addFunction 0 (potts4 1), .addFunction 0 (potts4 (-5)), .addFunction 0 (potts4 (-2)),
   .addFactor 0 [0, 1], .addFactor 1 [0, 1], .addFactor 2 [2, 3]]

theorem demo_built : BuiltModel (gmAfter demoOps) (builtAfter demoOps).problem := by
  refine ⟨1, fun _ _ => false, demoOps, _, by intro f g h; simp at h, ?_, rfl, rfl, rfl⟩
  simp [demoOps, potts4, ValidHistory, BuildOp.Valid, BuildOp.apply, Built.empty, restrict]

theorem twice_built : BuiltModel (gmAfter twiceOps) (builtAfter twiceOps).problem := by
  refine ⟨1, fun _ _ => false, twiceOps, _, by intro f g h; simp at h, ?_, rfl, rfl, rfl⟩
  simp [twiceOps, potts4, ValidHistory, BuildOp.Valid, BuildOp.apply, Built.empty, restrict]

theorem potts4_isPotts (w : ℚ) : IsPottsTable [4, 4] (potts4 w).table := by
  refine ⟨0, w, ?_⟩
  intro c hc
  match c, hc with
  | [a, b], _ =>
    constructor
    · intro h
      have := h 0 1 (by simp) (by simp)
      have hab : a = b := by simpa using this
      simp [potts4, hab]
    · intro h
      have hab : a ≠ b := by
        rintro rfl
        apply h
        intro i j hi hj
        simp only [List.length_cons, List.length_nil] at hi hj
        have hi' : i = 0 ∨ i = 1 := by omega
        have hj' : j = 0 ∨ j = 1 := by omega
        rcases hi' with rfl | rfl <;> rcases hj' with rfl | rfl <;> rfl
      simp [potts4, hab]

theorem demo_terms : (builtAfter demoOps).problem.terms = [⟨[0, 1], (potts4 1).table⟩, ⟨[1, 2], (potts4 1).table⟩, ⟨[0, 2], (potts4 (-5)).table⟩, ⟨[2, 3], (potts4 (-2)).table⟩] := rfl

theorem twice_terms : (builtAfter twiceOps).problem.terms = [⟨[0, 1], (potts4 1).table⟩, ⟨[0, 1], (potts4 (-5)).table⟩, ⟨[2, 3], (potts4 (-2)).table⟩] := rfl

theorem demo_partition : IsPartitionProblem (builtAfter demoOps).problem := by
  refine ⟨by decide, ?_⟩
  intro t ht
  rw [demo_terms] at ht
  simp only [List.mem_cons, List.not_mem_nil, or_false] at ht
  rcases ht with rfl | rfl | rfl | rfl <;> exact Or.inr ⟨rfl, potts4_isPotts _⟩

theorem twice_partition : IsPartitionProblem (builtAfter twiceOps).problem := by
  refine ⟨by decide, ?_⟩
  intro t ht
  rw [twice_terms] at ht
  simp only [List.mem_cons, List.not_mem_nil, or_false] at ht
  rcases ht with rfl | rfl | rfl <;> exact Or.inr ⟨rfl, potts4_isPotts _⟩

theorem demo_energy (y : List Nat) : (builtAfter demoOps).problem.energy (sumOp ℚ) y =
    (if y.getD 0 0 = y.getD 1 0 then 0 else 1) + (if y.getD 1 0 = y.getD 2 0 then 0 else 1) + (if y.getD 0 0 = y.getD 2 0 then 0 else -5) +
      (if y.getD 2 0 = y.getD 3 0 then 0 else -2) := by
  rw [PartitionMove.energy_sum, demo_terms]
  simp [Term.value, restrict, potts4]
  ring

/-- The hypotheses of `C94_optimal_partial` are met by a model with a component that is solved and one that is a single variable. -/
example : BuiltModel (gmAfter demoOps) (builtAfter demoOps).problem ∧ IsPartitionProblem (builtAfter demoOps).problem ∧ (∀ t ∈ (builtAfter demoOps).problem.terms, t.vars.length = 2) ∧
    (∀ t ∈ (builtAfter demoOps).problem.terms, 0 < Multicut.weight t → 0 ≤ totalWeight (builtAfter demoOps).problem t.vars) ∧ (∃ solver, Exact solver) ∧
    ∃ whole, (builtAfter demoOps).problem.Labeling whole ∧ ∀ y, (builtAfter demoOps).problem.Labeling y →
      (builtAfter demoOps).problem.energy (sumOp ℚ) whole ≤ (builtAfter demoOps).problem.energy (sumOp ℚ) y := by
  refine ⟨demo_built, demo_partition, ?_, ?_, exists_exact, [0, 0, 1, 0], ?_, ?_⟩
  · intro t ht
    rw [demo_terms] at ht
    simp only [List.mem_cons, List.not_mem_nil, or_false] at ht
    rcases ht with rfl | rfl | rfl | rfl <;> rfl
  · intro t ht
    unfold totalWeight
    rw [demo_terms] at ht ⊢
    simp only [List.mem_cons, List.not_mem_nil, or_false] at ht
    rcases ht with rfl | rfl | rfl | rfl <;> simp [Multicut.weight, potts4]
  · refine ⟨rfl, ?_⟩
    intro a l k h1 h2
    have hk : k = 4 := by
      have := List.mem_of_getElem? h2
      have h4 : (builtAfter demoOps).problem.numLabels = [4, 4, 4, 4] := rfl
      rw [h4] at this
      simpa using this
    have := List.mem_of_getElem? h1
    simp at this
    omega
  · intro y _
    rw [demo_energy, demo_energy]
    simp only [List.getD_cons_zero, List.getD_cons_succ]
    generalize y.getD 0 0 = a, y.getD 1 0 = b, y.getD 2 0 = c, y.getD 3 0 = e
    split_ifs <;> first | (exfalso; omega) | norm_num

/-- C94 is violated if factors have the same variables: the two variables of a component of two variables get the same label without looking at the total weight. For
factors of weights 1 and -5 for the same variables (and one of weight -2 for two other variables), the energy of the labels found is -2, and there is a labeling with
energy -6, for every solver of the subproblems. -/
theorem C94_violated_pair : ∃ (gm : GM ℚ) (p : Problem ℚ) (x y : List Nat), BuiltModel gm p ∧ IsPartitionProblem p ∧ (∀ t ∈ p.terms, t.vars.length = 2) ∧
    (∀ solver whole, infer gm 0 solver whole (construct gm) = .ok x ()) ∧ p.Labeling x ∧ p.Labeling y ∧ p.energy (sumOp ℚ) x = -2 ∧ p.energy (sumOp ℚ) y = -6 := by
  have hlab : ∀ x : List Nat, x.length = 4 → (∀ l ∈ x, l < 4) → (builtAfter twiceOps).problem.Labeling x := by
    intro x hx hs
    refine ⟨hx, ?_⟩
    intro a l k h1 h2
    have hk : k = 4 := by
      have := List.mem_of_getElem? h2
      have h4 : (builtAfter twiceOps).problem.numLabels = [4, 4, 4, 4] := rfl
      rw [h4] at this
      simpa using this
    have := hs l (List.mem_of_getElem? h1)
    omega
  refine ⟨gmAfter twiceOps, (builtAfter twiceOps).problem, [0, 0, 2, 3], [0, 1, 2, 3], twice_built, twice_partition, ?_, ?_, hlab _ rfl (by decide), hlab _ rfl (by decide), ?_, ?_⟩
  · intro t ht
    rw [twice_terms] at ht
    simp only [List.mem_cons, List.not_mem_nil, or_false] at ht
    rcases ht with rfl | rfl | rfl <;> rfl
  · intro solver whole
    with_unfolding_all rfl
  · rw [PartitionMove.energy_sum, twice_terms]
    simp [Term.value, restrict, potts4]
  · rw [PartitionMove.energy_sum, twice_terms]
    simp [Term.value, restrict, potts4]
    norm_num

/-- C94 is violated by value(): it is 0 for every result (its body was never written), for the labels above instead of -2. -/
theorem C94_violated_value : (∀ x, value x = 0) ∧ (builtAfter twiceOps).problem.energy (sumOp ℚ) [0, 0, 2, 3] = -2 := by
  refine ⟨fun _ => rfl, ?_⟩
  rw [PartitionMove.energy_sum, twice_terms]
  simp [Term.value, restrict, potts4]

/-- C94 is violated for models with a constant factor, which other solvers for partition problems accept (C87): infer() throws. -/
theorem C94_violated_constant : BuiltModel (gmAfter PartitionMove.triangleOps) (builtAfter PartitionMove.triangleOps).problem ∧
    IsPartitionProblem (builtAfter PartitionMove.triangleOps).problem ∧
    ∀ threshold solver whole, infer (gmAfter PartitionMove.triangleOps) threshold solver whole (construct (gmAfter PartitionMove.triangleOps)) = .throw () :=
  ⟨PartitionMove.triangle_built, PartitionMove.triangle_partition, fun _ _ _ => rfl⟩

/-- Three variables with two labels, and a factor of weight -1 for the first two. -/
def fewOps : List (BuildOp ℚ) :=
  [.addVariable 2, .addVariable 2, .addVariable 2, .addFunction 0 ⟨[2, 2], fun c => if c[0]? = c[1]? then 0 else -1⟩, .addFactor 0 [0, 1]]

/-- Three variables with four labels, and a factor of two variables that is 0 except for the labels 1 and 1, where it is -7. -/
def otherOps : List (BuildOp ℚ) :=
  [.addVariable 4, .addVariable 4, .addVariable 4, .addFunction 0 ⟨[4, 4], fun c => if c = [1, 1] then -7 else 0⟩, .addFactor 0 [0, 1]]

/-- C94 is violated for models with fewer labels than variables: they are not rejected, and the labels found do not exist (infer() goes on to evaluate the model there,
which is undefined). -/
theorem C94_violated_labels : ∃ (gm : GM ℚ) (p : Problem ℚ) (x : List Nat), BuiltModel gm p ∧ (∀ t ∈ p.terms, t.vars.length = 2) ∧
    (∀ solver whole, infer gm 0 solver whole (construct gm) = .ok x ()) ∧ x.length = p.numLabels.length ∧ ¬ p.Labeling x := by
  refine ⟨gmAfter fewOps, (builtAfter fewOps).problem, [0, 1, 2], ?_, ?_, ?_, rfl, ?_⟩
  · refine ⟨1, fun _ _ => false, fewOps, _, by intro f g h; simp at h, ?_, rfl, rfl, rfl⟩
    simp [fewOps, ValidHistory, BuildOp.Valid, BuildOp.apply, Built.empty, restrict]
  · intro t ht
    have h : (builtAfter fewOps).problem.terms = [⟨[0, 1], fun c => if c[0]? = c[1]? then 0 else -1⟩] := rfl
    rw [h, List.mem_singleton] at ht
    rw [ht]; rfl
  · intro solver whole
    with_unfolding_all rfl
  · intro h
    have := h.2 2 2 2 rfl rfl
    omega

/-- C94 is violated for factors that are not of the Potts form: they are not rejected; only their values for the labels (0, 0) and (0, 1) are read. For a factor that is -7
for the labels (1, 1) and 0 otherwise, the energy of the labels found is 0. -/
theorem C94_violated_other : ∃ (gm : GM ℚ) (p : Problem ℚ) (x y : List Nat), BuiltModel gm p ∧ (∀ t ∈ p.terms, t.vars.length = 2) ∧ (∀ k ∈ p.numLabels, p.numLabels.length ≤ k) ∧
    (∀ solver whole, infer gm 0 solver whole (construct gm) = .ok x ()) ∧ p.Labeling y ∧ p.energy (sumOp ℚ) x = 0 ∧ p.energy (sumOp ℚ) y = -7 := by
  have hterms : (builtAfter otherOps).problem.terms = [⟨[0, 1], fun c => if c = [1, 1] then -7 else 0⟩] := rfl
  refine ⟨gmAfter otherOps, (builtAfter otherOps).problem, [0, 1, 2], [1, 1, 0], ?_, ?_, by decide, ?_, ⟨rfl, ?_⟩, ?_, ?_⟩
  · refine ⟨1, fun _ _ => false, otherOps, _, by intro f g h; simp at h, ?_, rfl, rfl, rfl⟩
    simp [otherOps, ValidHistory, BuildOp.Valid, BuildOp.apply, Built.empty, restrict]
  · intro t ht
    rw [hterms, List.mem_singleton] at ht
    rw [ht]; rfl
  · intro solver whole
    with_unfolding_all rfl
  · intro a l k h1 h2
    have hk : k = 4 := by
      have := List.mem_of_getElem? h2
      have h4 : (builtAfter otherOps).problem.numLabels = [4, 4, 4] := rfl
      rw [h4] at this
      simpa using this
    have := List.mem_of_getElem? h1
    simp at this
    omega
  · rw [PartitionMove.energy_sum, hterms]
    simp [Term.value, restrict]
  · rw [PartitionMove.energy_sum, hterms]
    simp [Term.value, restrict]

end DMC
end OpenGM
