import Verif.Model.PermutableFusion
import Verif.Spec.LabelFusion
import Verif.Props.StartingPoint
import Verif.Props.DMC
/-
C97: the fusion of two partitions.
-/
namespace OpenGM
namespace PermutableFusion
open Spec Spec.Multicut
variable {gm : GM ℚ} {p : Problem ℚ} {a b : List Nat}

/-- The pairs that are merged. -/
def joined (a b : List Nat) (ts : List (Term ℚ)) : List (Nat × Nat) :=
  (ts.filter (fun t => decide (t.vars.length = 2 ∧ a[t.vars.getD 0 0]? = a[t.vars.getD 1 0]? ∧ b[t.vars.getD 0 0]? = b[t.vars.getD 1 0]?))).map (fun t => (t.vars.getD 0 0, t.vars.getD 1 0))

theorem mem_joined (u v : Nat) : (u, v) ∈ joined a b p.terms ↔ JoinedInBoth p a b u v := by
  simp only [joined, List.mem_map, List.mem_filter, decide_eq_true_eq, JoinedInBoth, Prod.mk.injEq]
  constructor
  · rintro ⟨t, ⟨ht, h2, h3, h4⟩, h5, h6⟩
    rw [h5, h6] at h3 h4
    exact ⟨t, ht, by rw [StartingPoint.vars_two h2, h5, h6], h3, h4⟩
  · rintro ⟨t, ht, hv, h3, h4⟩
    refine ⟨t, ⟨ht, ?_⟩, ?_⟩ <;> rw [hv] <;> simp [h3, h4]

theorem intersectLoop_spec (ha : a.length = gm.numLabels.length) (hb : b.length = gm.numLabels.length) : ∀ (fs : List FactorRec) (ts : List (Term ℚ)) (P : Partition)
    (pairs : List (Nat × Nat)) (rep : Nat → Nat), List.Forall₂ (FactorMatches gm) fs ts → Partition.Refines P ⟨gm.numLabels.length, pairs⟩ rep →
    ((∀ t ∈ ts, t.vars.length = 1 ∨ t.vars.length = 2) → ∃ P', intersectLoop gm a b fs P = .ok P' () ∧ P.run ((joined a b ts).map (fun q => PartitionOp.merge q.1 q.2)) = some P') ∧
    ((∃ t ∈ ts, t.vars.length ≠ 1 ∧ t.vars.length ≠ 2) → intersectLoop gm a b fs P = .throw ()) := by
  intro fs
  induction fs with
  | nil =>
    intro ts P pairs rep hf _
    cases hf
    exact ⟨fun _ => ⟨P, rfl, rfl⟩, fun ⟨t, ht, _⟩ => by simp at ht⟩
  | cons f fs ih =>
    intro ts P pairs rep hf hr
    cases hf with
    | @cons _ t _ ts hm hrest =>
      have hsz := hm.visSize
      have tail : t.vars.length = 1 ∨ t.vars.length = 2 → ∀ (Q : Partition) (pairs' : List (Nat × Nat)) (rep' : Nat → Nat), Partition.Refines Q ⟨gm.numLabels.length, pairs'⟩ rep' →
          ((∀ u ∈ t :: ts, u.vars.length = 1 ∨ u.vars.length = 2) → ∃ P', intersectLoop gm a b fs Q = .ok P' () ∧
            Q.run ((joined a b ts).map (fun q => PartitionOp.merge q.1 q.2)) = some P') ∧
          ((∃ u ∈ t :: ts, u.vars.length ≠ 1 ∧ u.vars.length ≠ 2) → intersectLoop gm a b fs Q = .throw ()) := by
        intro h12 Q pairs' rep' hQ
        obtain ⟨i1, i2⟩ := ih ts Q pairs' rep' hrest hQ
        refine ⟨fun h => i1 (fun u hu => h u (by simp [hu])), ?_⟩
        rintro ⟨u, hu, hu2⟩
        rcases List.mem_cons.mp hu with rfl | hu
        · omega
        · exact i2 ⟨u, hu, hu2⟩
      by_cases h2 : t.vars.length = 2
      · have hv := StartingPoint.vars_two h2
        have e0 : gm.visAt f 0 = some (t.vars.getD 0 0) := by rw [hm.visAt 0 (by omega), hv]; rfl
        have e1 : gm.visAt f 1 = some (t.vars.getD 1 0) := by rw [hm.visAt 1 (by omega), hv]; rfl
        have h0 : t.vars.getD 0 0 < gm.numLabels.length := hm.range _ (by rw [hv]; simp)
        have h1 : t.vars.getD 1 0 < gm.numLabels.length := hm.range _ (by rw [hv]; simp)
        simp only [intersectLoop]
        rw [if_pos (by omega), e0, e1]
        simp only
        rw [List.getElem?_eq_getElem (l := a) (i := t.vars.getD 0 0) (by omega), List.getElem?_eq_getElem (l := a) (i := t.vars.getD 1 0) (by omega),
          List.getElem?_eq_getElem (l := b) (i := t.vars.getD 0 0) (by omega), List.getElem?_eq_getElem (l := b) (i := t.vars.getD 1 0) (by omega)]
        simp only
        have hcond : (t.vars.length = 2 ∧ a[t.vars.getD 0 0]? = a[t.vars.getD 1 0]? ∧ b[t.vars.getD 0 0]? = b[t.vars.getD 1 0]?) ↔
            (a[t.vars.getD 0 0]'(by omega) = a[t.vars.getD 1 0]'(by omega) ∧ b[t.vars.getD 0 0]'(by omega) = b[t.vars.getD 1 0]'(by omega)) := by
          rw [List.getElem?_eq_getElem (l := a) (i := t.vars.getD 0 0) (by omega), List.getElem?_eq_getElem (l := a) (i := t.vars.getD 1 0) (by omega),
            List.getElem?_eq_getElem (l := b) (i := t.vars.getD 0 0) (by omega), List.getElem?_eq_getElem (l := b) (i := t.vars.getD 1 0) (by omega)]
          simp [h2]
        by_cases hc : a[t.vars.getD 0 0]'(by omega) = a[t.vars.getD 1 0]'(by omega) ∧ b[t.vars.getD 0 0]'(by omega) = b[t.vars.getD 1 0]'(by omega)
        · rw [if_pos hc]
          have hj : joined a b (t :: ts) = (t.vars.getD 0 0, t.vars.getD 1 0) :: joined a b ts := by
            unfold joined
            rw [List.filter_cons_of_pos (by rw [decide_eq_true_eq]; exact hcond.mpr hc), List.map_cons]
          rw [hj]
          obtain ⟨Q, rep', r1, r2⟩ := Partition.run_refines [.merge (t.vars.getD 0 0) (t.vars.getD 1 0)] hr ⟨⟨h0, h1⟩, trivial⟩
          have hmerge : P.merge (t.vars.getD 0 0) (t.vars.getD 1 0) = some Q := by
            simp only [Partition.run, Partition.step] at r1
            cases hq : P.merge (t.vars.getD 0 0) (t.vars.getD 1 0) with
            | none => rw [hq] at r1; simp at r1
            | some Q' => rw [hq] at r1; simpa using r1
          rw [hmerge]
          simp only
          obtain ⟨t1, t2⟩ := tail (Or.inr h2) Q _ rep' r2
          refine ⟨?_, t2⟩
          intro h
          obtain ⟨P', p1, p2⟩ := t1 h
          refine ⟨P', p1, ?_⟩
          simp only [List.map_cons, Partition.run, Partition.step, hmerge]
          exact p2
        · rw [if_neg hc]
          have hj : joined a b (t :: ts) = joined a b ts := by
            unfold joined
            rw [List.filter_cons_of_neg (by rw [decide_eq_true_eq]; exact fun h => hc (hcond.mp h))]
          rw [hj]
          exact tail (Or.inr h2) P pairs rep hr
      · have hj : joined a b (t :: ts) = joined a b ts := by
          unfold joined
          rw [List.filter_cons_of_neg (by simp [h2])]
        rw [hj]
        simp only [intersectLoop]
        rw [if_neg (by omega)]
        by_cases h1 : t.vars.length = 1
        · rw [if_pos (by omega)]
          exact tail (Or.inl h1) P pairs rep hr
        · rw [if_neg (by omega)]
          exact ⟨fun h => by have := h t (by simp); omega, fun _ => rfl⟩

/-- C97: the intersection of two partitions: two variables get the same label if and only if they are connected by terms that neither partition separates; the labels are
0, 1, ... without gaps, and their number is returned. -/
theorem C97_intersect (hb : BuiltModel gm p) (h12 : ∀ t ∈ p.terms, t.vars.length = 1 ∨ t.vars.length = 2) (hal : a.length = p.numLabels.length) (hbl : b.length = p.numLabels.length) :
    ∃ x k, intersect gm a b = .ok (k, x) () ∧ x.length = p.numLabels.length ∧
      (∀ u v lu lv : Nat, x[u]? = some lu → x[v]? = some lv → (lu = lv ↔ Relation.EqvGen (JoinedInBoth p a b) u v)) ∧ ∀ l, l ∈ x ↔ l < k := by
  have hr := hb.represents
  have hnl : gm.numLabels = p.numLabels := hr.labels
  obtain ⟨P, e1, e2⟩ := (intersectLoop_spec (a := a) (b := b) (by rw [hnl]; exact hal) (by rw [hnl]; exact hbl) gm.factors p.terms (Partition.ofSize gm.numLabels.length) [] id hr.factors
    (Partition.ofSize_refines _)).1 h12
  set ops := (joined a b p.terms).map (fun q => PartitionOp.merge q.1 q.2) with hops
  have hrange : ∀ q ∈ joined a b p.terms, q.1 < gm.numLabels.length ∧ q.2 < gm.numLabels.length := by
    rintro ⟨u, v⟩ hq
    obtain ⟨t, ht, hv, -⟩ := (mem_joined u v).mp hq
    obtain ⟨j, hj, hjt⟩ := List.getElem_of_mem ht
    have hf := List.forall₂_iff_get.mp hr.factors
    have hm := hf.2 j (by rw [hf.1]; exact hj) hj
    have := hm.range
    simp only [List.get_eq_getElem, hjt, hv] at this
    exact ⟨this u (by simp), this v (by simp)⟩
  have hfold : ∀ (l : List (Nat × Nat)) (s : Merged), (l.map (fun q => PartitionOp.merge q.1 q.2)).foldl PartitionOp.apply s = ⟨s.n, s.pairs ++ l⟩ := by
    intro l
    induction l with
    | nil => intro s; simp
    | cons q l ih => intro s; simp only [List.map_cons, List.foldl_cons]; rw [ih]; simp [PartitionOp.apply]
  have hvalid : ∀ (l : List (Nat × Nat)) (s : Merged), (∀ q ∈ l, q.1 < s.n ∧ q.2 < s.n) → ValidPartitionHistory s (l.map (fun q => PartitionOp.merge q.1 q.2)) := by
    intro l
    induction l with
    | nil => intro s _; trivial
    | cons q l ih => intro s h; exact ⟨h q (by simp), ih _ (fun u hu => h u (by simp [hu]))⟩
  have hv := hvalid _ ⟨gm.numLabels.length, []⟩ hrange
  obtain ⟨P1, L, r1, r2, r3, r4, r5⟩ := Partition.C31_elementLabeling gm.numLabels.length ops hv
  obtain ⟨P2, rep, s1, s2⟩ := Partition.run_refines ops (Partition.ofSize_refines gm.numLabels.length) hv
  rw [e2] at r1 s1
  cases r1
  cases s1
  have hmerged : Partition.mergedAfter gm.numLabels.length ops = ⟨gm.numLabels.length, joined a b p.terms⟩ := by
    simp only [Partition.mergedAfter, hops]
    rw [hfold]; simp
  have hsize : P.numberOfElements = gm.numLabels.length := by rw [s2.size, hops, hfold]
  rw [hmerged] at r3 r4
  have hequiv : ∀ u v, (⟨gm.numLabels.length, joined a b p.terms⟩ : Merged).Equiv u v ↔ Relation.EqvGen (JoinedInBoth p a b) u v := by
    intro u v
    unfold Merged.Equiv
    have : (fun u v => (u, v) ∈ joined a b p.terms) = JoinedInBoth p a b := by
      funext u v; exact propext (mem_joined u v)
    simp only [this]
  have hres : intersect gm a b = .ok (P.numberOfSets, L) () := by
    unfold intersect
    simp only [GM.numberOfVariables, e1]
    unfold Partition.elementLabeling at r2
    cases hrl : P.representativeLabeling with
    | none => rw [hrl] at r2; simp at r2
    | some rl =>
      rw [hrl] at r2
      simp only at r2 ⊢
      rw [StartingPoint.labelLoop_spec rl _ P s2.toInv (by intro v hv; rw [hsize]; exact List.mem_range.mp hv)]
      simp only
      have hmap : ∀ (g : Nat → Option Nat) (h : Nat → Nat) (l : List Nat), (∀ v ∈ l, g v = some (h v)) → l.mapM g = some (l.map h) := by
        intro g h l
        induction l with
        | nil => intro _; rfl
        | cons v l ih =>
          intro hh
          rw [List.mapM_cons, hh v (by simp), ih (fun u hu => hh u (by simp [hu]))]
          rfl
      rw [hmap _ (fun v => (rl.lookup (rep v)).getD 0) _ (by
        intro v hv
        rw [Partition.findConst_spec s2.toInv (List.mem_range.mp hv)]
        simp only
        cases rl.lookup (rep v) <;> rfl), hsize] at r2
      rw [Option.some.inj r2]
  refine ⟨L, P.numberOfSets, hres, by rw [r3, hnl], ?_, r5⟩
  intro u v lu lv hu hv'
  rw [r4 u v lu lv hu hv', hequiv]

/-- The cost of one edge. -/
theorem cut_add (k key : Nat) (w : ℚ) (z : List Nat) : ∀ acc : List (Nat × ℚ), cutWeight ((addWeight key w acc).map (edgeOf k)) z =
    cutWeight (acc.map (edgeOf k)) z + if z.getD (key - key / k * k) 0 = z.getD (key / k) 0 then 0 else w := by
  intro acc
  induction acc with
  | nil => simp [addWeight, cutWeight, edgeOf]
  | cons e rest ih =>
    obtain ⟨k', w'⟩ := e
    simp only [addWeight]
    by_cases h : k' = key
    · subst h
      rw [if_pos rfl]
      simp only [cutWeight, List.map_cons, List.sum_cons, edgeOf]
      split <;> ring
    · rw [if_neg h]
      simp only [cutWeight, List.map_cons, List.sum_cons] at ih ⊢
      rw [ih]; ring

theorem decode {k c0 c1 : Nat} (h : c0 < k) : (c0 + k * c1) / k = c1 ∧ (c0 + k * c1) - (c0 + k * c1) / k * k = c0 := by
  have h1 : (c0 + k * c1) / k = c1 := by
    rw [Nat.add_mul_div_left _ _ (by omega), Nat.div_eq_of_lt h]; omega
  refine ⟨h1, ?_⟩
  rw [h1, Nat.mul_comm c1 k]; omega

theorem accumulate_spec {ab : List Nat} {k : Nat} (hs : Stores gm p) (hab : ab.length = gm.numLabels.length) (hk : ∀ l ∈ ab, l < k) (hkn : k ≤ gm.numLabels.length)
    (hlab : ∀ n ∈ p.numLabels, p.numLabels.length ≤ n) : ∀ (fs : List FactorRec) (ts : List (Term ℚ)) (edges : Nat) (acc : List (Nat × ℚ)), List.Forall₂ (FactorMatches gm) fs ts →
    ∃ acc', accumulate gm ab k fs edges acc = .ok (edges + (ts.filter (fun t => decide (t.vars.length = 2))).length, acc') () ∧
      ∀ z, cutWeight (acc'.map (edgeOf k)) z = cutWeight (acc.map (edgeOf k)) z +
        ((ts.filter (fun t => decide (t.vars.length = 2))).map (fun t => if z.getD (ab.getD (t.vars.getD 0 0) 0) 0 = z.getD (ab.getD (t.vars.getD 1 0) 0) 0 then 0 else Multicut.weight t)).sum := by
  intro fs
  induction fs with
  | nil =>
    intro ts edges acc hf
    cases hf
    exact ⟨acc, rfl, fun z => by simp⟩
  | cons f fs ih =>
    intro ts edges acc hf
    cases hf with
    | @cons _ t _ ts hm hrest =>
      have hsz := hm.visSize
      by_cases ht2 : t.vars.length = 2
      swap
      · rw [List.filter_cons_of_neg (by simpa using ht2)]
        simp only [accumulate]
        rw [if_neg (by omega)]
        exact ih ts edges acc hrest
      rw [List.filter_cons_of_pos (by simpa using ht2)]
      have hv := StartingPoint.vars_two ht2
      have e0 : gm.visAt f 0 = some (t.vars.getD 0 0) := by rw [hm.visAt 0 (by omega), hv]; rfl
      have e1 : gm.visAt f 1 = some (t.vars.getD 1 0) := by rw [hm.visAt 1 (by omega), hv]; rfl
      have h0 : t.vars.getD 0 0 < gm.numLabels.length := hm.range _ (by rw [hv]; simp)
      have h1 : t.vars.getD 1 0 < gm.numLabels.length := hm.range _ (by rw [hv]; simp)
      have hlt : t.vars.getD 0 0 < t.vars.getD 1 0 := by
        have := hm.sorted
        rw [hv] at this
        simpa using this
      generalize hu : t.vars.getD 0 0 = u at *
      generalize hw : t.vars.getD 1 0 = v at *
      have hw' : DMC.weight gm f = some (Multicut.weight t) := by
        have hl := hs.labels
        have hsh : ∀ c : List Nat, c = [0, 0] ∨ c = [0, 1] → InShape (restrict p.numLabels t.vars) c := by
          have hbig : ∀ x, x < gm.numLabels.length → 2 ≤ p.numLabels.getD x 0 := by
            intro x hx
            rw [hl] at hx
            have hmem : p.numLabels.getD x 0 ∈ p.numLabels := by
              rw [List.getD_eq_getElem _ _ hx]; exact List.getElem_mem hx
            have := hlab _ hmem
            rw [hl] at h1
            omega
          have b0 := hbig u h0
          have b1 := hbig v h1
          rw [hv]
          rintro c (rfl | rfl)
          · exact (show InShape [p.numLabels.getD u 0, p.numLabels.getD v 0] [0, 0] from ⟨by omega, by omega, trivial⟩)
          · exact (show InShape [p.numLabels.getD u 0, p.numLabels.getD v 0] [0, 1] from ⟨by omega, by omega, trivial⟩)
        have hne : t.vars ≠ [] := by rw [hv]; simp
        unfold DMC.weight Multicut.weight
        rw [DP.callFactor_at hs hm (hsh _ (Or.inl rfl)) hne, DP.callFactor_at hs hm (hsh _ (Or.inr rfl)) hne]
      have a0 : ab[u]? = some (ab.getD u 0) := by rw [List.getD_eq_getElem _ _ (by omega), List.getElem?_eq_getElem]
      have a1 : ab[v]? = some (ab.getD v 0) := by rw [List.getD_eq_getElem _ _ (by omega), List.getElem?_eq_getElem]
      have k0 := hk _ (List.mem_of_getElem? a0)
      have k1 := hk _ (List.mem_of_getElem? a1)
      simp only [List.map_cons, List.sum_cons, hu, hw]
      generalize ab.getD u 0 = l0 at *
      generalize ab.getD v 0 = l1 at *
      simp only [accumulate]
      rw [if_pos (by omega), e0, e1]
      simp only [Option.bind_some, a0, a1]
      have hrange : (if l0 < l1 then l0 else l1) < gm.numberOfVariables ∧ (if l0 < l1 then l1 else l0) < gm.numberOfVariables := by
        rw [GM.numberOfVariables]
        constructor <;> split <;> omega
      rw [if_pos hrange]
      by_cases heq : l0 = l1
      · subst heq
        rw [if_pos (show (if l0 < l0 then l0 else l0) = (if l0 < l0 then l0 else l0) from rfl)]
        obtain ⟨acc', i1, i2⟩ := ih ts (edges + 1) acc hrest
        refine ⟨acc', by rw [i1]; simp only [List.length_cons]; congr 2; omega, fun z => ?_⟩
        rw [i2 z]; simp
      · have hne' : ¬ (if l0 < l1 then l0 else l1) = (if l0 < l1 then l1 else l0) := by split <;> omega
        rw [if_neg hne', hw']
        simp only
        obtain ⟨acc', i1, i2⟩ := ih ts (edges + 1) (addWeight ((if l0 < l1 then l0 else l1) + k * (if l0 < l1 then l1 else l0)) (Multicut.weight t) acc) hrest
        refine ⟨acc', by rw [i1]; simp only [List.length_cons]; congr 2; omega, fun z => ?_⟩
        rw [i2 z, cut_add]
        have hd := decode (k := k) (c0 := if l0 < l1 then l0 else l1) (c1 := if l0 < l1 then l1 else l0) (by split <;> omega)
        rw [hd.2, hd.1]
        by_cases hll : l0 < l1
        · simp only [if_pos hll]; ring
        · simp only [if_neg hll, eq_comm (a := z.getD l1 0)]; ring

/-- C97: the fusion of two partitions `a` and `b` of a model with terms of two variables, when their intersection has more than one part, for any solver: the solver gets
a problem on the parts of the intersection where each solution costs as much as the partition that it stands for; the result is the best of `a`, `b` and
the partition that the answer of the solver stands for, and its value is given with it. -/
theorem C97_fuse_partial (hb : BuiltModel gm p) (h2 : ∀ t ∈ p.terms, t.vars.length = 2) (hlab : ∀ n ∈ p.numLabels, p.numLabels.length ≤ n) (ha : p.Labeling a) (hbl : p.Labeling b)
    {solver : Nat → List (Nat × Nat × ℚ) → List Nat} (hsl : ∀ m es, (solver m es).length = m) (hsm : ∀ m es, ∀ l ∈ solver m es, l < m) (res : List Nat) (valRes : ℚ)
    (hsep : ∃ u v, u < p.numLabels.length ∧ v < p.numLabels.length ∧ ¬ Relation.EqvGen (JoinedInBoth p a b) u v) :
    ∃ k ab es r v, intersect gm a b = .ok (k, ab) () ∧ fuse gm solver a b res (p.energy ⟨0, (· + ·)⟩ a) (p.energy ⟨0, (· + ·)⟩ b) valRes = .ok (true, r, v) () ∧
      (∀ z, z.length = k → cutWeight es z = separationCost p (ab.map (fun l => z.getD l 0))) ∧
      p.Labeling r ∧ v = p.energy ⟨0, (· + ·)⟩ r ∧ r ∈ [a, b, ab.map (fun l => (solver k es).getD l 0)] ∧
      ∀ y ∈ [a, b, ab.map (fun l => (solver k es).getD l 0)], v ≤ p.energy ⟨0, (· + ·)⟩ y := by
  have hr := hb.represents
  have hs := hr.toStores
  have hnl : gm.numLabels = p.numLabels := hr.labels
  obtain ⟨ab, k, hi, i2, i3, i4⟩ := C97_intersect hb (fun t ht => Or.inr (h2 t ht)) ha.1 hbl.1
  have hk : k ≠ 1 := by
    rintro rfl
    obtain ⟨u, v, hu, hv, hn⟩ := hsep
    have gu : ab[u]? = some (ab[u]'(by omega)) := List.getElem?_eq_getElem (by omega)
    have gv : ab[v]? = some (ab[v]'(by omega)) := List.getElem?_eq_getElem (by omega)
    have zu := (i4 _).mp (List.mem_of_getElem? gu)
    have zv := (i4 _).mp (List.mem_of_getElem? gv)
    exact hn ((i3 u v _ _ gu gv).mp (by omega))
  have hkn : k ≤ ab.length := by
    have hsub : List.range k ⊆ ab := fun l hl => (i4 l).mpr (List.mem_range.mp hl)
    simpa using (List.nodup_range.subperm hsub).length_le
  have hlabel : ∀ y : List Nat, y.length = ab.length → (∀ l ∈ y, l < k) → p.Labeling y := by
    intro y hy hl
    refine ⟨by rw [hy, i2], fun v l n h1 h3 => ?_⟩
    have := hl l (List.mem_of_getElem? h1)
    have := hlab n (List.mem_of_getElem? h3)
    omega
  have hab : p.Labeling ab := hlabel ab rfl (fun l hl => (i4 l).mp hl)
  obtain ⟨acc, c1, c2⟩ := accumulate_spec (ab := ab) (k := k) hs (by rw [hnl, i2]) (fun l hl => (i4 l).mp hl) (by rw [hnl, ← i2]; exact hkn) hlab gm.factors p.terms 0 [] hr.factors
  have hfilter : p.terms.filter (fun t => decide (t.vars.length = 2)) = p.terms := List.filter_eq_self.mpr (fun t ht => by simpa using h2 t ht)
  rw [hfilter, ← hr.factors.length_eq] at c1
  rw [hfilter] at c2
  set es := acc.map (edgeOf k) with hes
  set sub := solver k es with hsub
  set proj := ab.map (fun l => sub.getD l 0) with hproj
  have hget : ∀ l ∈ ab, sub[l]? = some (sub.getD l 0) := by
    intro l hl
    have : l < sub.length := by rw [hsub, hsl]; exact (i4 l).mp hl
    rw [List.getD_eq_getElem _ _ this, List.getElem?_eq_getElem this]
  have hp : p.Labeling proj := by
    refine hlabel proj (by simp [hproj]) ?_
    intro l hl
    obtain ⟨m, hm, rfl⟩ := List.mem_map.mp hl
    exact hsm k es _ (List.mem_of_getElem? (hget m hm))
  have hcut : ∀ z, z.length = k → cutWeight es z = separationCost p (ab.map (fun l => z.getD l 0)) := by
    intro z _
    rw [hes, c2 z]
    simp only [separationCost, cutWeight, List.map_nil, List.sum_nil, zero_add]
    congr 1
    apply List.map_congr_left
    intro t ht
    obtain ⟨j, hj, hjt⟩ := List.getElem_of_mem ht
    have hf := List.forall₂_iff_get.mp hr.factors
    have hm := hf.2 j (by rw [hf.1]; exact hj) hj
    simp only [List.get_eq_getElem, hjt] at hm
    have hv := StartingPoint.vars_two (h2 t ht)
    have g : ∀ q, q < gm.numLabels.length → (ab.map (fun l => z.getD l 0)).getD q 0 = z.getD (ab.getD q 0) 0 := by
      intro q hq
      rw [hnl, ← i2] at hq
      rw [List.getD_eq_getElem _ _ (by simpa using hq), List.getElem_map, List.getD_eq_getElem _ _ hq]
    rw [g _ (hm.range _ (by rw [hv]; simp)), g _ (hm.range _ (by rw [hv]; simp))]
  have hfuse : ∀ va vb, fuse gm solver a b res va vb valRes =
      (if p.energy ⟨0, (· + ·)⟩ proj < (if va < vb then va else vb) then
        .ok (true, proj, if (if va < vb then va else vb) < p.energy ⟨0, (· + ·)⟩ proj then (if va < vb then va else vb) else p.energy ⟨0, (· + ·)⟩ proj) ()
      else .ok (true, if va < vb then a else b, if (if va < vb then va else vb) < p.energy ⟨0, (· + ·)⟩ proj then (if va < vb then va else vb) else p.energy ⟨0, (· + ·)⟩ proj) ()) := by
    intro va vb
    unfold fuse
    rw [hi]
    simp only
    rw [if_neg hk, evaluate_spec _ hs ab hab]
    simp only [c1, GM.numberOfFactors, Nat.zero_add, if_true]
    rw [DMC.mapM_some hget]
    simp only
    have := evaluate_spec ⟨0, (· + ·)⟩ hs proj hp
    rw [hproj] at this
    rw [this]
  rw [hfuse]
  have hmem : proj ∈ [a, b, proj] := List.mem_cons_of_mem _ (List.mem_cons_of_mem _ List.mem_cons_self)
  have mem3 : ∀ {P : List Nat → Prop}, P a → P b → P proj → ∀ y ∈ [a, b, proj], P y := by
    intro P q1 q2 q3 y hy
    simp only [List.mem_cons, List.not_mem_nil, or_false] at hy
    rcases hy with rfl | rfl | rfl <;> assumption
  generalize hEp : p.energy ⟨0, (· + ·)⟩ proj = ep
  generalize hEa : p.energy ⟨0, (· + ·)⟩ a = ea
  generalize hEb : p.energy ⟨0, (· + ·)⟩ b = eb
  by_cases hab' : ea < eb
  · simp only [if_pos hab']
    by_cases hpa : ep < ea
    · rw [if_pos hpa, if_neg (not_lt.mpr hpa.le)]
      exact ⟨k, ab, es, proj, ep, hi, rfl, hcut, hp, hEp.symm, hmem, mem3 (by rw [hEa]; exact hpa.le) (by rw [hEb]; exact (hpa.trans hab').le) hEp.ge⟩
    · rw [if_neg hpa]
      have hv : (if ea < ep then ea else ep) = ea := by
        split
        · rfl
        · exact le_antisymm (not_lt.mp ‹_›) (not_lt.mp hpa)
      rw [hv]
      exact ⟨k, ab, es, a, ea, hi, rfl, hcut, ha, hEa.symm, by simp, mem3 hEa.ge (by rw [hEb]; exact hab'.le) (by rw [hEp]; exact not_lt.mp hpa)⟩
  · simp only [if_neg hab']
    by_cases hpb : ep < eb
    · rw [if_pos hpb, if_neg (not_lt.mpr hpb.le)]
      exact ⟨k, ab, es, proj, ep, hi, rfl, hcut, hp, hEp.symm, hmem, mem3 (by rw [hEa]; exact (hpb.trans_le (not_lt.mp hab')).le) (by rw [hEb]; exact hpb.le) hEp.ge⟩
    · rw [if_neg hpb]
      have hv : (if eb < ep then eb else ep) = eb := by
        split
        · rfl
        · exact le_antisymm (not_lt.mp ‹_›) (not_lt.mp hpb)
      rw [hv]
      exact ⟨k, ab, es, b, eb, hi, rfl, hcut, hbl, hEb.symm, by simp, mem3 (by rw [hEa]; exact not_lt.mp hab') hEb.ge (by rw [hEp]; exact not_lt.mp hpb)⟩

/-- The energy of a labeling of a partition problem is a constant and the cost of what it separates. -/
theorem energy_separation (hb : BuiltModel gm p) (hp : IsPartitionProblem p) (h2 : ∀ t ∈ p.terms, t.vars.length = 2) {y : List Nat} (hy : p.Labeling y) :
    p.energy ⟨0, (· + ·)⟩ y = (p.terms.map (fun t => t.table [0, 0])).sum + separationCost p y := by
  refine (DMC.energy_S hb hp h2 hy).trans ?_
  congr 1
  unfold DMC.S separationCost
  congr 1
  apply List.ext_getElem
  · simp
  · intro i h1 h2
    have hi : i < p.terms.length := by simpa using h1
    obtain ⟨e1, e2, e3⟩ := DMC.at_term (p := p) (List.getElem?_eq_getElem hi)
    simp only [List.getElem_map, List.getElem_range]
    rw [e1, e2, e3]
    simp only [PartitionMove.ne]
    split <;> simp

/-- C97: with an exact solver the result is at least as good as every partition that does not separate the parts of the intersection, so as every partition whose cuts are
cuts of `a` or of `b`. -/
theorem C97_exact_partial (hb : BuiltModel gm p) (hpp : IsPartitionProblem p) (h2 : ∀ t ∈ p.terms, t.vars.length = 2) (ha : p.Labeling a) (hbl : p.Labeling b)
    {solver : Nat → List (Nat × Nat × ℚ) → List Nat} (hsol : Exact solver) (res : List Nat) (valRes : ℚ)
    (hsep : ∃ u v, u < p.numLabels.length ∧ v < p.numLabels.length ∧ ¬ Relation.EqvGen (JoinedInBoth p a b) u v) :
    ∃ r v, fuse gm solver a b res (p.energy ⟨0, (· + ·)⟩ a) (p.energy ⟨0, (· + ·)⟩ b) valRes = .ok (true, r, v) () ∧ p.Labeling r ∧ v = p.energy ⟨0, (· + ·)⟩ r ∧
      ∀ y, p.Labeling y → (∀ u v, JoinedInBoth p a b u v → y[u]? = y[v]?) → v ≤ p.energy ⟨0, (· + ·)⟩ y := by
  obtain ⟨k, ab, es, r, v, f1, f2, f3, f4, f5, -, f7⟩ := C97_fuse_partial hb h2 hpp.labels ha hbl hsol.length hsol.small res valRes hsep
  refine ⟨r, v, f2, f4, f5, ?_⟩
  intro y hy hyj
  obtain ⟨x, k', i1, i2, i3, i4⟩ := C97_intersect hb (fun t ht => Or.inr (h2 t ht)) ha.1 hbl.1
  rw [f1] at i1
  simp only [Outcome.ok.injEq, Prod.mk.injEq, and_true] at i1
  obtain ⟨rfl, rfl⟩ := i1
  have hconst : ∀ u v, Relation.EqvGen (JoinedInBoth p a b) u v → y[u]? = y[v]? := by
    intro u v h
    induction h with
    | rel u v h => exact hyj u v h
    | refl u => rfl
    | symm u v _ ih => exact ih.symm
    | trans u v w _ _ ih1 ih2 => exact ih1.trans ih2
  have hkn : k ≤ ab.length := by
    have hsub : List.range k ⊆ ab := fun l hl => (i4 l).mpr (List.mem_range.mp hl)
    simpa using (List.nodup_range.subperm hsub).length_le
  have hlabel : ∀ y : List Nat, y.length = ab.length → (∀ l ∈ y, l < k) → p.Labeling y := by
    intro y hy hl
    refine ⟨by rw [hy, i2], fun v l n h1 h3 => ?_⟩
    have := hl l (List.mem_of_getElem? h1)
    have := hpp.labels n (List.mem_of_getElem? h3)
    omega
  -- the label of a part, and the first part with this label
  set g : Nat → Nat := fun c => y.getD (ab.idxOf c) 0 with hg
  set z0 : List Nat := (List.range k).map g with hz0
  set z : List Nat := (List.range k).map (fun c => z0.idxOf (g c)) with hz
  have hmem : ∀ c, c < k → g c ∈ z0 := fun c hc => List.mem_map.mpr ⟨c, List.mem_range.mpr hc, rfl⟩
  have hzl : z.length = k := by simp [hz]
  have hzk : ∀ l ∈ z, l < k := by
    intro l hl
    obtain ⟨c, hc, rfl⟩ := List.mem_map.mp hl
    have := List.idxOf_lt_length_of_mem (hmem c (List.mem_range.mp hc))
    simpa [hz0] using this
  have hzget : ∀ c, c < k → z.getD c 0 = z0.idxOf (g c) := by
    intro c hc
    rw [List.getD_eq_getElem _ _ (by rw [hzl]; exact hc)]
    simp [hz]
  have hsame : ∀ c d, c < k → d < k → (z.getD c 0 = z.getD d 0 ↔ g c = g d) := by
    intro c d hc hd
    rw [hzget c hc, hzget d hd]
    exact List.idxOf_inj (hmem c hc)
  have hgab : ∀ u, u < ab.length → g (ab.getD u 0) = y.getD u 0 := by
    intro u hu
    have e1 : ab[u]? = some (ab.getD u 0) := by rw [List.getD_eq_getElem _ _ hu, List.getElem?_eq_getElem hu]
    have hm := List.mem_of_getElem? e1
    have hlt := List.idxOf_lt_length_of_mem hm
    have e2 : ab[ab.idxOf (ab.getD u 0)]? = some (ab.getD u 0) := by rw [List.getElem?_eq_getElem hlt, List.getElem_idxOf]
    have := hconst _ _ ((i3 _ _ _ _ e2 e1).mp rfl)
    simp only [hg, List.getD_eq_getElem?_getD] at this ⊢
    rw [this]
  have hcost : separationCost p (ab.map (fun l => z.getD l 0)) = separationCost p y := by
    unfold separationCost
    congr 1
    apply List.map_congr_left
    intro t ht
    have hr := hb.represents
    obtain ⟨j, hj, hjt⟩ := List.getElem_of_mem ht
    have hf := List.forall₂_iff_get.mp hr.factors
    have hm := hf.2 j (by rw [hf.1]; exact hj) hj
    simp only [List.get_eq_getElem, hjt] at hm
    have hv := StartingPoint.vars_two (h2 t ht)
    have hnl : gm.numLabels = p.numLabels := hr.labels
    have h0 : t.vars.getD 0 0 < ab.length := by rw [i2, ← hnl]; exact hm.range _ (by rw [hv]; simp)
    have h1 : t.vars.getD 1 0 < ab.length := by rw [i2, ← hnl]; exact hm.range _ (by rw [hv]; simp)
    have hq : ∀ q, q < ab.length → (ab.map (fun l => z.getD l 0)).getD q 0 = z.getD (ab.getD q 0) 0 := by
      intro q hq
      rw [List.getD_eq_getElem _ _ (by simpa using hq), List.getElem_map, List.getD_eq_getElem _ _ hq]
    have hkq : ∀ q, q < ab.length → ab.getD q 0 < k := by
      intro q hq
      rw [List.getD_eq_getElem _ _ hq]
      exact (i4 _).mp (List.getElem_mem hq)
    have hiff := hsame _ _ (hkq _ h0) (hkq _ h1)
    rw [hgab _ h0, hgab _ h1] at hiff
    rw [hq _ h0, hq _ h1]
    simp only [hiff]
  have hproj : p.Labeling (ab.map (fun l => (solver k es).getD l 0)) := by
    refine hlabel _ (by simp) ?_
    intro l hl
    obtain ⟨m, hm, rfl⟩ := List.mem_map.mp hl
    have : m < (solver k es).length := by rw [hsol.length]; exact (i4 m).mp hm
    rw [List.getD_eq_getElem _ _ this]
    exact hsol.small k es _ (List.getElem_mem this)
  have hbest := hsol.best k es z hzl hzk
  rw [f3 _ (hsol.length k es), f3 z hzl, hcost] at hbest
  refine (f7 _ (List.mem_cons_of_mem _ (List.mem_cons_of_mem _ List.mem_cons_self))).trans ?_
  rw [energy_separation hb hpp h2 hproj, energy_separation hb hpp h2 hy]
  exact add_le_add (le_refl _) hbest

/-- C97, what is missing: when all variables are connected by terms that neither partition separates, `fuse` returns without writing the result or its value,
whatever they held before. -/
theorem C97_violated_single (hb : BuiltModel gm p) (h12 : ∀ t ∈ p.terms, t.vars.length = 1 ∨ t.vars.length = 2) (hal : a.length = p.numLabels.length) (hbl : b.length = p.numLabels.length)
    (hn : 0 < p.numLabels.length) (hcon : ∀ u v, u < p.numLabels.length → v < p.numLabels.length → Relation.EqvGen (JoinedInBoth p a b) u v)
    (solver : Nat → List (Nat × Nat × ℚ) → List Nat) (res : List Nat) (valA valB valRes : ℚ) :
    fuse gm solver a b res valA valB valRes = .ok (false, res, valRes) () := by
  obtain ⟨x, k, i1, i2, i3, i4⟩ := C97_intersect hb h12 hal hbl
  have hk : k = 1 := by
    have g0 := (i4 _).mp (List.getElem_mem (l := x) (n := 0) (by omega))
    by_contra hne
    obtain ⟨u, hu, e0⟩ := List.getElem_of_mem ((i4 0).mpr (by omega))
    obtain ⟨v, hv, e1⟩ := List.getElem_of_mem ((i4 1).mpr (by omega))
    have := (i3 u v 0 1 (by rw [List.getElem?_eq_getElem hu, e0]) (by rw [List.getElem?_eq_getElem hv, e1])).mpr (hcon u v (by omega) (by omega))
    omega
  unfold fuse
  rw [i1]
  simp [hk]

/-- C97, what is missing: a model with a factor of one variable, which `intersect` accepts, is rejected by `fuse` when the intersection has more than one part. -/
theorem C97_violated_unary (hb : BuiltModel gm p) (h12 : ∀ t ∈ p.terms, t.vars.length = 1 ∨ t.vars.length = 2) (hone : ∃ t ∈ p.terms, t.vars.length = 1)
    (hlab : ∀ n ∈ p.numLabels, p.numLabels.length ≤ n) (ha : p.Labeling a) (hbl : p.Labeling b)
    (hsep : ∃ u v, u < p.numLabels.length ∧ v < p.numLabels.length ∧ ¬ Relation.EqvGen (JoinedInBoth p a b) u v)
    (solver : Nat → List (Nat × Nat × ℚ) → List Nat) (res : List Nat) (valA valB valRes : ℚ) :
    (∃ k ab, intersect gm a b = .ok (k, ab) ()) ∧ fuse gm solver a b res valA valB valRes = .throw () := by
  have hr := hb.represents
  have hs := hr.toStores
  have hnl : gm.numLabels = p.numLabels := hr.labels
  obtain ⟨ab, k, hi, i2, i3, i4⟩ := C97_intersect hb h12 ha.1 hbl.1
  refine ⟨⟨k, ab, hi⟩, ?_⟩
  have hk : k ≠ 1 := by
    rintro rfl
    obtain ⟨u, v, hu, hv, hn⟩ := hsep
    have gu : ab[u]? = some (ab[u]'(by omega)) := List.getElem?_eq_getElem (by omega)
    have gv : ab[v]? = some (ab[v]'(by omega)) := List.getElem?_eq_getElem (by omega)
    have zu := (i4 _).mp (List.mem_of_getElem? gu)
    have zv := (i4 _).mp (List.mem_of_getElem? gv)
    exact hn ((i3 u v _ _ gu gv).mp (by omega))
  have hkn : k ≤ ab.length := by
    have hsub : List.range k ⊆ ab := fun l hl => (i4 l).mpr (List.mem_range.mp hl)
    simpa using (List.nodup_range.subperm hsub).length_le
  have hab : p.Labeling ab := by
    refine ⟨i2, fun v l n h1 h3 => ?_⟩
    have := (i4 l).mp (List.mem_of_getElem? h1)
    have := hlab n (List.mem_of_getElem? h3)
    omega
  obtain ⟨acc, c1, -⟩ := accumulate_spec (ab := ab) (k := k) hs (by rw [hnl, i2]) (fun l hl => (i4 l).mp hl) (by rw [hnl, ← i2]; exact hkn) hlab gm.factors p.terms 0 [] hr.factors
  have hlt : (p.terms.filter (fun t => decide (t.vars.length = 2))).length < p.terms.length := by
    obtain ⟨t, ht, h1⟩ := hone
    rw [List.length_filter_lt_length_iff_exists]
    exact ⟨t, ht, by simp [h1]⟩
  have hfl : gm.factors.length = p.terms.length := hr.factors.length_eq
  have hne : ¬ 0 + (p.terms.filter (fun t => decide (t.vars.length = 2))).length = gm.numberOfFactors := by
    rw [GM.numberOfFactors]; omega
  unfold fuse
  rw [hi]
  simp only
  rw [if_neg hk, evaluate_spec _ hs ab hab]
  simp only [c1]
  rw [if_neg hne]

/-- A factor with another number of variables than one or two is rejected. -/
theorem C97_rejects (hb : BuiltModel gm p) (hn : ∃ t ∈ p.terms, t.vars.length ≠ 1 ∧ t.vars.length ≠ 2) (ha : a.length = p.numLabels.length) (hbl : b.length = p.numLabels.length)
    (solver : Nat → List (Nat × Nat × ℚ) → List Nat) (res : List Nat) (valA valB valRes : ℚ) :
    intersect gm a b = .throw () ∧ fuse gm solver a b res valA valB valRes = .throw () := by
  have hr := hb.represents
  have hnl : gm.numLabels = p.numLabels := hr.labels
  have := (intersectLoop_spec (a := a) (b := b) (by rw [hnl]; exact ha) (by rw [hnl]; exact hbl) gm.factors p.terms (Partition.ofSize gm.numLabels.length) [] id hr.factors
    (Partition.ofSize_refines _)).2 hn
  have hi : intersect gm a b = .throw () := by
    unfold intersect
    simp only [GM.numberOfVariables, this]
  refine ⟨hi, ?_⟩
  unfold fuse
  rw [hi]

open StartingPoint (chainOps chain_valid)

theorem chain_two : ∀ t ∈ (builtAfter chainOps).problem.terms, t.vars.length = 2 := by
  intro t ht
  have h : t.vars ∈ (builtAfter chainOps).problem.terms.map Term.vars := List.mem_map.mpr ⟨t, ht, rfl⟩
  have h' : (builtAfter chainOps).problem.terms.map Term.vars = [[0, 2], [0, 1]] := rfl
  rw [h'] at h
  simp at h
  rcases h with h | h <;> simp [h]

/-- Variables that are connected have equal labels in `a`. -/
theorem joined_eq {u v : Nat} (h : Relation.EqvGen (JoinedInBoth p a b) u v) : a[u]? = a[v]? := by
  induction h with
  | rel u v h => obtain ⟨t, -, -, h, -⟩ := h; exact h
  | refl u => rfl
  | symm u v _ ih => exact ih.symm
  | trans u v w _ _ ih1 ih2 => exact ih1.trans ih2

/-- The hypotheses of `C97_intersect` and `C97_fuse_partial` are met by a chain of three variables and two different partitions. -/
example : (∃ gm, BuiltModel gm (builtAfter chainOps).problem) ∧ (∀ t ∈ (builtAfter chainOps).problem.terms, t.vars.length = 2) ∧
    (∀ n ∈ (builtAfter chainOps).problem.numLabels, (builtAfter chainOps).problem.numLabels.length ≤ n) ∧ (builtAfter chainOps).problem.Labeling [0, 0, 1] ∧
    (builtAfter chainOps).problem.Labeling [2, 2, 2] ∧ JoinedInBoth (builtAfter chainOps).problem [0, 0, 1] [2, 2, 2] 0 1 ∧
    ∃ u v, u < (builtAfter chainOps).problem.numLabels.length ∧ v < (builtAfter chainOps).problem.numLabels.length ∧
      ¬ Relation.EqvGen (JoinedInBoth (builtAfter chainOps).problem [0, 0, 1] [2, 2, 2]) u v := by
  have hl : (builtAfter chainOps).problem.numLabels = [3, 3, 3] := rfl
  refine ⟨builtModel_exists chain_valid, chain_two, by decide, ?_, ?_, ⟨_, List.mem_of_getElem? (i := 1) rfl, rfl, rfl, rfl⟩, 0, 2, by decide, by decide, fun h => ?_⟩
  · refine ⟨rfl, fun v l n h1 h2 => ?_⟩
    rw [hl] at h2
    match v, h1, h2 with
    | 0, h1, h2 => simp at h1 h2; omega
    | 1, h1, h2 => simp at h1 h2; omega
    | 2, h1, h2 => simp at h1 h2; omega
    | v + 3, h1, h2 => simp at h1
  · refine ⟨rfl, fun v l n h1 h2 => ?_⟩
    rw [hl] at h2
    match v, h1, h2 with
    | 0, h1, h2 => simp at h1 h2; omega
    | 1, h1, h2 => simp at h1 h2; omega
    | 2, h1, h2 => simp at h1 h2; omega
    | v + 3, h1, h2 => simp at h1
  · have := joined_eq h
    simp at this

/-- The further hypotheses of `C97_exact_partial` are met. -/
example : IsPartitionProblem (builtAfter chainOps).problem ∧ (∃ solver, Exact solver) ∧ ∀ u v, JoinedInBoth (builtAfter chainOps).problem [0, 0, 1] [2, 2, 2] u v → [1, 1, 0][u]? = [1, 1, 0][v]? := by
  refine ⟨⟨by decide, fun t ht => Or.inr ⟨chain_two t ht, ?_⟩⟩, DMC.exists_exact, ?_⟩
  · have h : t.table = fun _ => (0 : ℚ) := by
      have : t ∈ ([⟨[0, 2], fun _ => 0⟩, ⟨[0, 1], fun _ => 0⟩] : List (Term ℚ)) := ht
      simp at this
      rcases this with rfl | rfl <;> rfl
    rw [h]
    exact ⟨0, 0, fun c _ => by simp⟩
  · rintro u v ⟨t, ht, hv, h1, -⟩
    have : t ∈ ([⟨[0, 2], fun _ => 0⟩, ⟨[0, 1], fun _ => 0⟩] : List (Term ℚ)) := ht
    simp at this
    rcases this with rfl | rfl <;> simp at hv <;> obtain ⟨rfl, rfl⟩ := hv
    · simp at h1
    · rfl

/-- The hypotheses of `C97_violated_single` are met. -/
example : (∃ gm, BuiltModel gm (builtAfter chainOps).problem) ∧ (∀ t ∈ (builtAfter chainOps).problem.terms, t.vars.length = 1 ∨ t.vars.length = 2) ∧
    ∀ u v, u < (builtAfter chainOps).problem.numLabels.length → v < (builtAfter chainOps).problem.numLabels.length →
      Relation.EqvGen (JoinedInBoth (builtAfter chainOps).problem [0, 0, 0] [1, 1, 1]) u v := by
  refine ⟨builtModel_exists chain_valid, fun t ht => Or.inr (chain_two t ht), ?_⟩
  have h0 : ∀ u, u < 3 → Relation.EqvGen (JoinedInBoth (builtAfter chainOps).problem [0, 0, 0] [1, 1, 1]) 0 u := by
    intro u hu
    match u, hu with
    | 0, _ => exact .refl 0
    | 1, _ => exact .rel _ _ ⟨_, List.mem_of_getElem? (i := 1) rfl, rfl, rfl, rfl⟩
    | 2, _ => exact .rel _ _ ⟨_, List.mem_of_getElem? (i := 0) rfl, rfl, rfl, rfl⟩
  intro u v hu hv
  exact .trans _ _ _ (.symm _ _ (h0 u hu)) (h0 v hv)

/-- The hypotheses of `C97_violated_unary` are met. -/
example : (∃ gm, BuiltModel gm (builtAfter StartingPoint.unaryOps).problem) ∧ (∀ t ∈ (builtAfter StartingPoint.unaryOps).problem.terms, t.vars.length = 1 ∨ t.vars.length = 2) ∧
    (∃ t ∈ (builtAfter StartingPoint.unaryOps).problem.terms, t.vars.length = 1) ∧
    (∀ n ∈ (builtAfter StartingPoint.unaryOps).problem.numLabels, (builtAfter StartingPoint.unaryOps).problem.numLabels.length ≤ n) ∧
    ¬ Relation.EqvGen (JoinedInBoth (builtAfter StartingPoint.unaryOps).problem [0, 0, 1] [2, 2, 2]) 0 2 := by
  refine ⟨builtModel_exists StartingPoint.unary_valid, ?_, ⟨⟨[2], fun _ => 0⟩, List.mem_of_getElem? (i := 2) rfl, rfl⟩, by decide, fun h => by simpa using joined_eq h⟩
  · intro t ht
    have h : t.vars ∈ (builtAfter StartingPoint.unaryOps).problem.terms.map Term.vars := List.mem_map.mpr ⟨t, ht, rfl⟩
    have h' : (builtAfter StartingPoint.unaryOps).problem.terms.map Term.vars = [[0, 2], [0, 1], [2]] := rfl
    rw [h'] at h
    simp at h
    rcases h with h | h | h <;> simp [h]

/-- Three variables with a factor of all of them. -/
def tripleOps : List (BuildOp ℚ) := [.addVariable 3, .addVariable 3, .addVariable 3, .addFunction 0 ⟨[3, 3, 3], fun _ => 0⟩, .addFactor 0 [0, 1, 2]]

theorem triple_valid : ValidHistory 1 Built.empty tripleOps := by
  simp [tripleOps, ValidHistory, BuildOp.Valid, BuildOp.apply, Built.empty, restrict]

/-- The hypotheses of `C97_rejects` are met. -/
example : (∃ gm, BuiltModel gm (builtAfter tripleOps).problem) ∧ ∃ t ∈ (builtAfter tripleOps).problem.terms, t.vars.length ≠ 1 ∧ t.vars.length ≠ 2 :=
  ⟨builtModel_exists triple_valid, ⟨[0, 1, 2], fun _ => 0⟩, List.mem_of_getElem? (i := 0) rfl, by decide⟩

end PermutableFusion
end OpenGM
