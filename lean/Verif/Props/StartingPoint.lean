import Verif.Model.StartingPoint
import Verif.Spec.Threshold
import Verif.Props.Partition
import Verif.Lemmas.Built
import Mathlib.Data.Rat.Defs
import Mathlib.Algebra.Order.Ring.Rat
/-
C96: the starting point of a multicut algorithm from a threshold.
-/
namespace OpenGM
namespace StartingPoint
open Spec
variable {V F : Type} [LinearOrder F]

/-- The pairs that are merged, for the terms from number `i` on. -/
def strong (lambdas : List F) (threshold : F) : Nat → List (Term V) → List (Nat × Nat)
  | _, [] => []
  | i, t :: ts =>
    match lambdas[i]? with
    | some l => if l > threshold then (t.vars.getD 0 0, t.vars.getD 1 0) :: strong lambdas threshold (i + 1) ts else strong lambdas threshold (i + 1) ts
    | none => strong lambdas threshold (i + 1) ts

theorem vars_two {t : Term V} (h : t.vars.length = 2) : t.vars = [t.vars.getD 0 0, t.vars.getD 1 0] := by
  match hv : t.vars, h with
  | [a, b], _ => rfl

theorem mem_strong {lambdas : List F} {threshold : F} {a b : Nat} : ∀ (ts : List (Term V)) (i : Nat), (∀ t ∈ ts, t.vars.length = 2) →
    ((a, b) ∈ strong lambdas threshold i ts ↔ ∃ (j : Nat) (t : Term V) (l : F), ts[j]? = some t ∧ t.vars = [a, b] ∧ lambdas[i + j]? = some l ∧ threshold < l) := by
  intro ts
  induction ts with
  | nil => intro i _; simp [strong]
  | cons t ts ih =>
    intro i h2
    have ih := ih (i + 1) (fun u hu => h2 u (by simp [hu]))
    have hv := vars_two (h2 t (by simp))
    have split : (∃ (j : Nat) (u : Term V) (l : F), (t :: ts)[j]? = some u ∧ u.vars = [a, b] ∧ lambdas[i + j]? = some l ∧ threshold < l) ↔
        (∃ l, t.vars = [a, b] ∧ lambdas[i]? = some l ∧ threshold < l) ∨ (a, b) ∈ strong lambdas threshold (i + 1) ts := by
      rw [ih]
      constructor
      · rintro ⟨j, u, l, h1, h3, h4, h5⟩
        cases j with
        | zero =>
          simp at h1
          subst h1
          exact Or.inl ⟨l, h3, h4, h5⟩
        | succ j => exact Or.inr ⟨j, u, l, by simpa using h1, h3, by rw [← h4]; congr 1; omega, h5⟩
      · rintro (⟨l, h3, h4, h5⟩ | ⟨j, u, l, h1, h3, h4, h5⟩)
        · exact ⟨0, t, l, rfl, h3, h4, h5⟩
        · exact ⟨j + 1, u, l, by simpa using h1, h3, by rw [← h4]; congr 1; omega, h5⟩
    rw [split, strong]
    cases hl : lambdas[i]? with
    | none => simp
    | some l =>
      simp only
      by_cases hlt : l > threshold
      · rw [if_pos hlt, List.mem_cons]
        have : (a, b) = (t.vars.getD 0 0, t.vars.getD 1 0) ↔ t.vars = [a, b] := by
          constructor
          · intro h
            rw [hv]
            rw [Prod.mk.injEq] at h
            rw [← h.1, ← h.2]
          · intro h; rw [h]; rfl
        rw [this]
        constructor
        · rintro (h | h)
          · exact Or.inl ⟨l, h, rfl, hlt⟩
          · exact Or.inr h
        · rintro (⟨_, h, _⟩ | h)
          · exact Or.inl h
          · exact Or.inr h
      · rw [if_neg hlt]
        constructor
        · exact Or.inr
        · rintro (⟨l', _, h, h'⟩ | h)
          · cases h; exact absurd h' hlt
          · exact h

theorem mergeLoop_spec {gm : GM V} {lambdas : List F} {threshold : F} : ∀ (fs : List FactorRec) (ts : List (Term V)) (i : Nat) (P : Partition) (pairs : List (Nat × Nat)) (rep : Nat → Nat),
    List.Forall₂ (FactorMatches gm) fs ts → i + fs.length ≤ lambdas.length → Partition.Refines P ⟨gm.numLabels.length, pairs⟩ rep →
    ((∀ t ∈ ts, t.vars.length = 2) → ∃ P', mergeLoop gm lambdas threshold fs i P = .ok P' () ∧ P.run ((strong lambdas threshold i ts).map (fun q => PartitionOp.merge q.1 q.2)) = some P') ∧
    ((∃ t ∈ ts, t.vars.length ≠ 2) → mergeLoop gm lambdas threshold fs i P = .throw ()) := by
  intro fs
  induction fs with
  | nil =>
    intro ts i P pairs rep hf _ _
    cases hf
    exact ⟨fun _ => ⟨P, rfl, rfl⟩, fun ⟨t, ht, _⟩ => by simp at ht⟩
  | cons f fs ih =>
    intro ts i P pairs rep hf hlen hr
    cases hf with
    | @cons _ t _ ts hm hrest =>
      have hsz := hm.visSize
      simp only [List.length_cons] at hlen
      by_cases h2 : t.vars.length = 2
      · have hv := vars_two h2
        have e0 : gm.visAt f 0 = some (t.vars.getD 0 0) := by rw [hm.visAt 0 (by omega), hv]; rfl
        have e1 : gm.visAt f 1 = some (t.vars.getD 1 0) := by rw [hm.visAt 1 (by omega), hv]; rfl
        have hl : lambdas[i]? = some lambdas[i] := List.getElem?_eq_getElem (by omega)
        have tail : ∀ (Q : Partition) (pairs' : List (Nat × Nat)) (rep' : Nat → Nat), Partition.Refines Q ⟨gm.numLabels.length, pairs'⟩ rep' →
            ((∀ u ∈ t :: ts, u.vars.length = 2) → ∃ P', mergeLoop gm lambdas threshold fs (i + 1) Q = .ok P' () ∧
              Q.run ((strong lambdas threshold (i + 1) ts).map (fun q => PartitionOp.merge q.1 q.2)) = some P') ∧
            ((∃ u ∈ t :: ts, u.vars.length ≠ 2) → mergeLoop gm lambdas threshold fs (i + 1) Q = .throw ()) := by
          intro Q pairs' rep' hQ
          obtain ⟨i1, i2⟩ := ih ts (i + 1) Q pairs' rep' hrest (by omega) hQ
          refine ⟨fun h => i1 (fun u hu => h u (by simp [hu])), ?_⟩
          rintro ⟨u, hu, hu2⟩
          rcases List.mem_cons.mp hu with rfl | hu
          · exact absurd h2 hu2
          · exact i2 ⟨u, hu, hu2⟩
        simp only [mergeLoop, strong]
        rw [if_pos (by omega), e0, e1, hl]
        simp only
        by_cases hlt : lambdas[i] > threshold
        · rw [if_pos hlt, if_pos hlt]
          have ha : t.vars.getD 0 0 < gm.numLabels.length := hm.range _ (by rw [hv]; simp)
          have hb : t.vars.getD 1 0 < gm.numLabels.length := hm.range _ (by rw [hv]; simp)
          obtain ⟨Q, rep', r1, r2⟩ := Partition.run_refines [.merge (t.vars.getD 0 0) (t.vars.getD 1 0)] hr ⟨⟨ha, hb⟩, trivial⟩
          have hmerge : P.merge (t.vars.getD 0 0) (t.vars.getD 1 0) = some Q := by
            simp only [Partition.run, Partition.step] at r1
            cases hq : P.merge (t.vars.getD 0 0) (t.vars.getD 1 0) with
            | none => rw [hq] at r1; simp at r1
            | some Q' => rw [hq] at r1; simpa using r1
          rw [hmerge]
          simp only
          obtain ⟨t1, t2⟩ := tail Q _ rep' r2
          refine ⟨?_, t2⟩
          intro h
          obtain ⟨P', p1, p2⟩ := t1 h
          refine ⟨P', p1, ?_⟩
          simp only [List.map_cons, Partition.run, Partition.step, hmerge]
          exact p2
        · rw [if_neg hlt, if_neg hlt]
          exact tail P pairs rep hr
      · constructor
        · intro h; exact absurd (h t (by simp)) h2
        · intro _
          simp only [mergeLoop]
          rw [if_neg (by omega)]

theorem labelLoop_spec (rl : List (Nat × Nat)) {rep : Nat → Nat} : ∀ (vis : List Nat) (P : Partition), Partition.Inv P rep → (∀ v ∈ vis, v < P.numberOfElements) →
    labelLoop rl vis P = some (vis.map (fun v => (rl.lookup (rep v)).getD 0)) := by
  intro vis
  induction vis with
  | nil => intro P _ _; rfl
  | cons v vis ih =>
    intro P h hr
    obtain ⟨P', e1, e2, e3, -⟩ := Partition.find_spec h (hr v (by simp))
    simp only [labelLoop, e1]
    rw [ih P' e2 (fun u hu => by rw [e3]; exact hr u (by simp [hu]))]
    rfl

variable {gm : GM V} {p : Problem V} {lambdas : List F} {threshold : F}

/-- C96: for a model all of whose factors have two variables, and one value per factor, two variables get the same label if and only if they are connected by factors with
values above the threshold; the labels are 0, 1, ... without gaps, and they are labels of the model if it has as many labels as variables. -/
theorem C96_threshold (hb : BuiltModel gm p) (h2 : ∀ t ∈ p.terms, t.vars.length = 2) (hl : lambdas.length = p.terms.length) :
    ∃ x k, startFromThreshold gm lambdas threshold = .ok x () ∧ x.length = p.numLabels.length ∧
      (∀ a b la lb : Nat, x[a]? = some la → x[b]? = some lb → (la = lb ↔ Relation.EqvGen (LinkedAbove p lambdas threshold) a b)) ∧ (∀ l, l ∈ x ↔ l < k) ∧
      ((∀ n ∈ p.numLabels, p.numLabels.length ≤ n) → p.Labeling x) := by
  have hr := hb.represents
  have hnl : gm.numLabels = p.numLabels := hr.labels
  have hfl : gm.factors.length = p.terms.length := hr.factors.length_eq
  obtain ⟨P, e1, e2⟩ := (mergeLoop_spec (threshold := threshold) (lambdas := lambdas) gm.factors p.terms 0 (Partition.ofSize gm.numLabels.length) [] id hr.factors (by omega)
    (Partition.ofSize_refines _)).1 h2
  set ops := (strong lambdas threshold 0 p.terms).map (fun q => PartitionOp.merge q.1 q.2) with hops
  have hlink : ∀ a b, (a, b) ∈ strong lambdas threshold 0 p.terms ↔ LinkedAbove p lambdas threshold a b := by
    intro a b
    rw [mem_strong p.terms 0 h2]
    simp [LinkedAbove]
  have hrange : ∀ q ∈ strong lambdas threshold 0 p.terms, q.1 < gm.numLabels.length ∧ q.2 < gm.numLabels.length := by
    rintro ⟨a, b⟩ hq
    obtain ⟨j, t, l, h1, h3, -⟩ := (hlink a b).mp hq
    have hf := List.forall₂_iff_get.mp hr.factors
    obtain ⟨hj, hjt⟩ := List.getElem?_eq_some_iff.mp h1
    have hm := hf.2 j (by omega) hj
    have := hm.range
    simp only [List.get_eq_getElem, hjt, h3] at this
    exact ⟨this a (by simp), this b (by simp)⟩
  have hfold : ∀ (l : List (Nat × Nat)) (s : Merged), (l.map (fun q => PartitionOp.merge q.1 q.2)).foldl PartitionOp.apply s = ⟨s.n, s.pairs ++ l⟩ := by
    intro l
    induction l with
    | nil => intro s; simp
    | cons q l ih => intro s; simp only [List.map_cons, List.foldl_cons]; rw [ih]; simp [PartitionOp.apply]
  have hvalid : ∀ (l : List (Nat × Nat)) (s : Merged), (∀ q ∈ l, q.1 < s.n ∧ q.2 < s.n) → ValidPartitionHistory s (l.map (fun q => PartitionOp.merge q.1 q.2)) := by
    intro l
    induction l with
    | nil => intro s _; trivial
    | cons q l ih => intro s h; exact ⟨h q (by simp), ih _ (fun u hu => h u (by simp [hu]))⟩
  have hv := hvalid _ ⟨gm.numLabels.length, []⟩ hrange
  obtain ⟨P1, L, r1, r2, r3, r4, r5⟩ := Partition.C31_elementLabeling gm.numLabels.length ops hv
  obtain ⟨P2, rep, s1, s2⟩ := Partition.run_refines ops (Partition.ofSize_refines gm.numLabels.length) hv
  rw [e2] at r1 s1
  cases r1
  cases s1
  have hmerged : Partition.mergedAfter gm.numLabels.length ops = ⟨gm.numLabels.length, strong lambdas threshold 0 p.terms⟩ := by
    simp only [Partition.mergedAfter, hops]
    rw [hfold]; simp
  have hsize : P.numberOfElements = gm.numLabels.length := by rw [s2.size, hops, hfold]
  rw [hmerged] at r3 r4
  have hequiv : ∀ a b, (⟨gm.numLabels.length, strong lambdas threshold 0 p.terms⟩ : Merged).Equiv a b ↔ Relation.EqvGen (LinkedAbove p lambdas threshold) a b := by
    intro a b
    unfold Merged.Equiv
    have : (fun a b => (a, b) ∈ strong lambdas threshold 0 p.terms) = LinkedAbove p lambdas threshold := by
      funext a b; exact propext (hlink a b)
    simp only [this]
  have hres : startFromThreshold gm lambdas threshold = .ok L () := by
    unfold startFromThreshold
    simp only [GM.numberOfVariables, e1]
    unfold Partition.elementLabeling at r2
    cases hrl : P.representativeLabeling with
    | none => rw [hrl] at r2; simp at r2
    | some rl =>
      rw [hrl] at r2
      simp only at r2 ⊢
      rw [labelLoop_spec rl _ P s2.toInv (by intro v hv; rw [hsize]; exact List.mem_range.mp hv)]
      simp only
      have hmap : ∀ (g : Nat → Option Nat) (h : Nat → Nat) (l : List Nat), (∀ v ∈ l, g v = some (h v)) → l.mapM g = some (l.map h) := by
        intro g h l
        induction l with
        | nil => intro _; rfl
        | cons v l ih =>
          intro hh
          rw [List.mapM_cons, hh v (by simp), ih (fun u hu => hh u (by simp [hu]))]
          rfl
      rw [hmap _ (fun v => (rl.lookup (rep v)).getD 0) _ (by
        intro v hv
        rw [Partition.findConst_spec s2.toInv (List.mem_range.mp hv)]
        simp only
        cases rl.lookup (rep v) <;> rfl), hsize] at r2
      rw [Option.some.inj r2]
  refine ⟨L, P.numberOfSets, hres, by rw [r3, hnl], ?_, r5, ?_⟩
  · intro a b la lb ha hb'
    rw [r4 a b la lb ha hb', hequiv]
  · intro hbig
    refine ⟨by rw [r3, hnl], ?_⟩
    intro v l n h1 h3
    have hk : P.numberOfSets ≤ L.length := by
      have hsub : List.range P.numberOfSets ⊆ L := fun l hl => (r5 l).mpr (List.mem_range.mp hl)
      have := (List.nodup_range.subperm hsub).length_le
      simpa using this
    have h4 := (r5 l).mp (List.mem_of_getElem? h1)
    have h5 := hbig n (List.mem_of_getElem? h3)
    rw [← hnl] at h5
    simp only at r3
    omega

/-- C96: a model with a factor that has not two variables is rejected. -/
theorem C96_rejects (hb : BuiltModel gm p) (h2 : ∃ t ∈ p.terms, t.vars.length ≠ 2) (hl : lambdas.length = p.terms.length) : startFromThreshold gm lambdas threshold = .throw () := by
  have hr := hb.represents
  have hfl : gm.factors.length = p.terms.length := hr.factors.length_eq
  have := (mergeLoop_spec (threshold := threshold) (lambdas := lambdas) gm.factors p.terms 0 (Partition.ofSize gm.numLabels.length) [] id hr.factors (by omega)
    (Partition.ofSize_refines _)).2 h2
  unfold startFromThreshold
  simp only [GM.numberOfVariables, this]

/-- Three variables with three labels in a chain of two factors. -/
def chainOps : List (BuildOp ℚ) :=
  [.addVariable 3, .addVariable 3, .addVariable 3, .addFunction 0 ⟨[3, 3], fun _ => 0⟩, .addFactor 0 [0, 2], .addFactor 0 [0, 1]]

/-- The same with a factor of one variable. -/
def unaryOps : List (BuildOp ℚ) := chainOps ++ [.addFunction 0 ⟨[3], fun _ => 0⟩, .addFactor 1 [2]]

theorem chain_valid : ValidHistory 1 Built.empty chainOps := by
  simp [chainOps, ValidHistory, BuildOp.Valid, BuildOp.apply, Built.empty, restrict]

theorem unary_valid : ValidHistory 1 Built.empty unaryOps := by
  simp [unaryOps, chainOps, ValidHistory, BuildOp.Valid, BuildOp.apply, Built.empty, restrict]

/-- The hypotheses of `C96_threshold` are met by a model where some variables are connected and others are not. -/
example : (∃ gm, BuiltModel gm (builtAfter chainOps).problem) ∧ (∀ t ∈ (builtAfter chainOps).problem.terms, t.vars.length = 2) ∧
    [(1 : ℚ), -1].length = (builtAfter chainOps).problem.terms.length ∧ (∀ n ∈ (builtAfter chainOps).problem.numLabels, (builtAfter chainOps).problem.numLabels.length ≤ n) ∧
    LinkedAbove (builtAfter chainOps).problem [(1 : ℚ), -1] 0 0 2 := by
  refine ⟨builtModel_exists chain_valid, ?_, rfl, by decide, 0, _, 1, rfl, rfl, rfl, by decide⟩
  intro t ht
  have h : t.vars ∈ (builtAfter chainOps).problem.terms.map Term.vars := List.mem_map.mpr ⟨t, ht, rfl⟩
  have h' : (builtAfter chainOps).problem.terms.map Term.vars = [[0, 2], [0, 1]] := rfl
  rw [h'] at h
  simp at h
  rcases h with h | h <;> simp [h]

/-- The hypotheses of `C96_rejects` are met. -/
example : (∃ gm, BuiltModel gm (builtAfter unaryOps).problem) ∧ ∃ t ∈ (builtAfter unaryOps).problem.terms, t.vars.length ≠ 2 :=
  ⟨builtModel_exists unary_valid, ⟨[2], fun _ => 0⟩, List.mem_of_getElem? (i := 2) rfl, by decide⟩

end StartingPoint
end OpenGM
