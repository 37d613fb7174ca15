import Verif.Model.PrimalBound
import Verif.Lemmas.ExplicitModel
import Verif.Lemmas.DPOrder
/-
The buffered values of PrimalLPBound are those of the current weights.
-/
namespace OpenGM
namespace PrimalBound
open Spec Spec.PrimalBound
variable {R S : Type}

/-! ### constructor -/

theorem mappingLoop_spec {gm : GM R} : ∀ (fs : List FactorRec) (ts done : List (Term R)) (m : List (Option Nat)), List.Forall₂ (FactorMatches gm) fs ts →
    m.length = gm.numLabels.length →
    (∀ v, v < gm.numLabels.length → (∃ (j : Nat) (t : Term R), m[v]? = some (some j) ∧ done[j]? = some t ∧ t.vars = [v]) ∨ (m[v]? = some none ∧ ∀ t ∈ done, t.vars ≠ [v])) →
    ∃ m', mappingLoop gm fs done.length m = some m' ∧ m'.length = gm.numLabels.length ∧
      ∀ v, v < gm.numLabels.length → (∃ (j : Nat) (t : Term R), m'[v]? = some (some j) ∧ (done ++ ts)[j]? = some t ∧ t.vars = [v]) ∨
        (m'[v]? = some none ∧ ∀ t ∈ done ++ ts, t.vars ≠ [v])
  | [], _, done, m, .nil, hl, h => ⟨m, rfl, hl, by simpa using h⟩
  | f :: fs, _, done, m, .cons (b := t) (l₂ := ts) hf hfs, hl, h => by
    have key : done ++ t :: ts = (done ++ [t]) ++ ts := by simp
    have keep : ∀ v, (∃ (j : Nat) (s : Term R), m[v]? = some (some j) ∧ done[j]? = some s ∧ s.vars = [v]) →
        ∃ (j : Nat) (s : Term R), m[v]? = some (some j) ∧ (done ++ [t])[j]? = some s ∧ s.vars = [v] := by
      rintro v ⟨j, s, h1, h2, h3⟩
      exact ⟨j, s, h1, by rw [List.getElem?_append_left (List.getElem?_eq_some_iff.mp h2).1]; exact h2, h3⟩
    have hlen : done.length + 1 = (done ++ [t]).length := by simp
    rw [mappingLoop, key, hlen]
    by_cases h1 : f.visSize = 1
    · rw [if_pos h1]
      have hl1 : t.vars.length = 1 := by rw [← hf.visSize, h1]
      obtain ⟨v, hv⟩ := List.length_eq_one_iff.mp hl1
      have hat : gm.visAt f 0 = some v := by rw [hf.visAt 0 (by omega), hv]; rfl
      have hvl : v < gm.numLabels.length := hf.range v (by simp [hv])
      rw [hat]
      simp only
      rcases h v hvl with ⟨j, s, a1, a2, a3⟩ | ⟨a1, a2⟩
      · rw [a1]
        simp only
        apply mappingLoop_spec fs ts (done ++ [t]) m hfs hl
        intro w hw
        by_cases hvw : v = w
        · subst hvw
          left
          exact keep v ⟨j, s, a1, a2, a3⟩
        · rcases h w hw with hh | ⟨b1, b2⟩
          · left; exact keep w hh
          · right
            refine ⟨b1, ?_⟩
            intro s hs
            rcases List.mem_append.mp hs with hs | hs
            · exact b2 s hs
            · rw [List.mem_singleton] at hs
              subst hs
              rw [hv]
              simpa using hvw
      · rw [a1]
        simp only
        apply mappingLoop_spec fs ts (done ++ [t]) _ hfs (by simpa using hl)
        intro w hw
        by_cases hvw : v = w
        · subst hvw
          left
          exact ⟨done.length, t, by simp [hl, hvl], by simp, hv⟩
        · rw [List.getElem?_set_ne hvw]
          rcases h w hw with hh | ⟨b1, b2⟩
          · left; exact keep w hh
          · right
            refine ⟨b1, ?_⟩
            intro s hs
            rcases List.mem_append.mp hs with hs | hs
            · exact b2 s hs
            · rw [List.mem_singleton] at hs
              subst hs
              rw [hv]
              simpa using hvw
    · rw [if_neg h1]
      apply mappingLoop_spec fs ts (done ++ [t]) m hfs hl
      intro w hw
      rcases h w hw with hh | ⟨b1, b2⟩
      · left; exact keep w hh
      · right
        refine ⟨b1, ?_⟩
        intro s hs
        rcases List.mem_append.mp hs with hs | hs
        · exact b2 s hs
        · rw [List.mem_singleton] at hs
          subst hs
          intro hc
          apply h1
          rw [hf.visSize, hc]
          rfl

theorem countLoop_spec {gm : GM R} : ∀ (fs : List FactorRec) (ts done : List (Term R)) (c : List Nat), List.Forall₂ (FactorMatches gm) fs ts →
    c.length = gm.numLabels.length → (∀ v, v < gm.numLabels.length → c[v]? = some (done.countP (fun t => decide (t.vars = [v])))) →
    ∃ c', countLoop gm fs c = some c' ∧ c'.length = gm.numLabels.length ∧
      ∀ v, v < gm.numLabels.length → c'[v]? = some ((done ++ ts).countP (fun t => decide (t.vars = [v])))
  | [], _, done, c, .nil, hl, h => ⟨c, rfl, hl, by simpa using h⟩
  | f :: fs, _, done, c, .cons (b := t) (l₂ := ts) hf hfs, hl, h => by
    have key : done ++ t :: ts = (done ++ [t]) ++ ts := by simp
    rw [countLoop, key]
    by_cases h1 : f.visSize = 1
    · rw [if_pos h1]
      have hl1 : t.vars.length = 1 := by rw [← hf.visSize, h1]
      obtain ⟨v, hv⟩ := List.length_eq_one_iff.mp hl1
      have hat : gm.visAt f 0 = some v := by rw [hf.visAt 0 (by omega), hv]; rfl
      have hvl : v < gm.numLabels.length := hf.range v (by simp [hv])
      rw [hat]
      simp only
      rw [h v hvl]
      simp only
      apply countLoop_spec fs ts (done ++ [t]) _ hfs (by simpa using hl)
      intro w hw
      rw [List.countP_append]
      by_cases hvw : v = w
      · subst hvw
        simp [hl, hvl, hv]
      · rw [List.getElem?_set_ne hvw, h w hw]
        simp [hv, hvw]
    · rw [if_neg h1]
      apply countLoop_spec fs ts (done ++ [t]) c hfs hl
      intro w hw
      rw [List.countP_append, h w hw]
      have : t.vars ≠ [w] := by
        intro hc
        apply h1
        rw [hf.visSize, hc]
        rfl
      simp [this]

/-- The state of the object for the weights `us`. -/
structure Inv [Zero R] [Add R] [Mul R] (e : Env R S) (p : Problem R) (s : Bound R S) (us : List (List R)) : Prop where
  unary : s.unary = us
  lens : us.map List.length = p.numLabels
  mapping : ∀ v, v < p.numLabels.length → (∃ (j : Nat) (t : Term R), s.mapping[v]? = some (some j) ∧ p.terms[j]? = some t ∧ t.vars = [v]) ∨
    (s.mapping[v]? = some none ∧ ∀ t ∈ p.terms, t.vars ≠ [v])
  len : s.buffered.length = p.terms.length
  buffered : ∀ (j : Nat) (b : R) (t : Term R), s.buffered[j]? = some b → p.terms[j]? = some t → b = e.nan ∨ b = termValue e.solve us j t
  total : s.total = e.nan ∨ s.total = totalValue e.solve p us
  last : s.last ≠ none → s.sol ≠ none
  sol : ∀ (j : Nat) (b : R) (t : Term R), s.buffered[j]? = some b → p.terms[j]? = some t → t.vars.length = 2 → b ≠ e.nan → s.sol ≠ none

section
variable [DecidableEq R] [Zero R] [Add R] [Mul R]

/-- Number of variables with at least two unary terms. -/
theorem countP_oneUnary {p : Problem R} {c : List Nat} (hlen : c.length = p.numLabels.length) (hr : ∀ t ∈ p.terms, ∀ v ∈ t.vars, v < p.numLabels.length)
    (hc : ∀ v, v < p.numLabels.length → c[v]? = some (p.terms.countP (fun t => decide (t.vars = [v])))) :
    c.countP (fun k => decide (k > 1)) = 0 ↔ OneUnary p := by
  rw [List.countP_eq_zero]
  constructor
  · intro h i j s t hs ht hl hst
    by_contra hij
    obtain ⟨v, hv⟩ := List.length_eq_one_iff.mp hl
    have hvl := hr s (List.mem_of_getElem? hs) v (by simp [hv])
    have h1 := hc v hvl
    have h2 := h _ (List.mem_of_getElem? h1)
    have h3 : p.terms.countP (fun t => decide (t.vars = [v])) ≤ 1 := by simpa using h2
    have aux : ∀ (i j : Nat) (s t : Term R), i < j → p.terms[i]? = some s → p.terms[j]? = some t → s.vars = [v] → t.vars = [v] → False := by
      intro i j s t hij hs ht hsv htv
      have e1 : p.terms = p.terms.take j ++ p.terms.drop j := (List.take_append_drop _ _).symm
      rw [e1, List.countP_append] at h3
      have c1 : 0 < (p.terms.take j).countP (fun t => decide (t.vars = [v])) := by
        rw [List.countP_pos_iff]
        refine ⟨s, List.mem_of_getElem? (i := i) ?_, by simp [hsv]⟩
        rw [List.getElem?_take, if_pos hij]
        exact hs
      have c2 : 0 < (p.terms.drop j).countP (fun t => decide (t.vars = [v])) := by
        rw [List.countP_pos_iff]
        refine ⟨t, List.mem_of_getElem? (i := 0) ?_, by simp [htv]⟩
        rw [List.getElem?_drop]
        exact ht
      omega
    rcases Nat.lt_or_gt_of_ne hij with hlt | hlt
    · exact aux i j s t hlt hs ht hv (hst ▸ hv)
    · exact aux j i t s hlt ht hs (hst ▸ hv) hv
  · intro h k hk
    obtain ⟨v, hv⟩ := List.mem_iff_getElem?.mp hk
    have hvl : v < p.numLabels.length := by rw [← hlen]; exact (List.getElem?_eq_some_iff.mp hv).1
    rw [hc v hvl] at hv
    cases hv
    simp only [decide_eq_true_eq, not_lt, gt_iff_lt]
    rw [List.countP_eq_length_filter]
    by_contra hgt
    -- two different positions
    obtain ⟨a, b, rest, hab⟩ : ∃ a b rest, p.terms.filter (fun t => decide (t.vars = [v])) = a :: b :: rest := by
      match hh : p.terms.filter (fun t => decide (t.vars = [v])) with
      | [] => rw [hh] at hgt; simp at hgt
      | [a] => rw [hh] at hgt; simp at hgt
      | a :: b :: rest => exact ⟨a, b, rest, hh⟩
    have hsub : [a, b].Sublist p.terms := by
      refine List.Sublist.trans ?_ (List.filter_sublist (p := fun t => decide (t.vars = [v])) (l := p.terms))
      rw [hab]
      simp
    have hva : a.vars = [v] := by
      have : a ∈ p.terms.filter (fun t => decide (t.vars = [v])) := by rw [hab]; simp
      simpa using (List.mem_filter.mp this).2
    have hvb : b.vars = [v] := by
      have : b ∈ p.terms.filter (fun t => decide (t.vars = [v])) := by rw [hab]; simp
      simpa using (List.mem_filter.mp this).2
    obtain ⟨f, hf⟩ := List.sublist_iff_exists_orderEmbedding_getElem?_eq.mp hsub
    have h0 := hf 0
    have h1 := hf 1
    simp only [List.getElem?_cons_zero, List.getElem?_cons_succ] at h0 h1
    have := h (f 0) (f 1) a b h0.symm h1.symm (by rw [hva]; rfl) (by rw [hva, hvb])
    have := f.injective this
    omega

theorem construct_spec (e : Env R S) {gm : GM R} {p : Problem R} (hr : Represents gm p) :
    (OneUnary p → ∃ s, construct e gm = .ok s () ∧ Inv e p s (p.numLabels.map (fun n => List.replicate n 0)) ∧ s.last = none ∧ ∀ b ∈ s.buffered, b = e.nan) ∧
    (¬ OneUnary p → construct e gm = .throw ()) := by
  have hl := hr.labels
  obtain ⟨m, e1, e2, e3⟩ := mappingLoop_spec gm.factors p.terms [] (List.replicate gm.numberOfVariables none) hr.factors (by simp [GM.numberOfVariables]) (by
    intro v hv
    right
    simp [GM.numberOfVariables, hv])
  obtain ⟨c, c1, c2, c3⟩ := countLoop_spec gm.factors p.terms [] (List.replicate gm.numberOfVariables 0) hr.factors (by simp [GM.numberOfVariables]) (by
    intro v hv
    simp [GM.numberOfVariables, hv])
  rw [List.nil_append] at e3 c3
  have hrange : ∀ t ∈ p.terms, ∀ v ∈ t.vars, v < p.numLabels.length := by
    intro t ht v hv
    obtain ⟨j, hj⟩ := List.mem_iff_getElem?.mp ht
    obtain ⟨f, _, g2⟩ := DP.factor_at hr.toStores hj
    have := g2.range v hv
    rwa [hl] at this
  rw [hl] at c2 c3 e3
  have hcount := countP_oneUnary c2 hrange c3
  have hflen := hr.factors.length_eq
  unfold construct
  simp only [List.length_nil] at e1
  rw [e1]
  simp only
  rw [c1]
  simp only
  constructor
  · intro ho
    rw [if_neg (by rw [hcount.mpr ho]; simp)]
    refine ⟨_, rfl, ⟨?_, ?_, e3, ?_, ?_, .inl rfl, by simp, ?_⟩, rfl, ?_⟩
    · simp only [hl]
    · simp [List.map_map, Function.comp_def]
    · simp [GM.numberOfFactors, hflen]
    · intro j b t hb _
      left
      have := List.mem_of_getElem? hb
      exact (List.mem_replicate.mp this).2
    · intro j b t hb _ _ hne
      have := List.mem_of_getElem? hb
      exact absurd (List.mem_replicate.mp this).2 hne
    · intro b hb
      exact (List.mem_replicate.mp hb).2
  · intro ho
    rw [if_pos (fun hc => ho (hcount.mp hc))]

/-! ### calls -/

variable {e : Env R S} {gm : GM R} {p : Problem R}

theorem inv_get (hi : Inv e p s us) {v n : Nat} (hv : p.numLabels[v]? = some n) : ∃ u, s.unary[v]? = some u ∧ us.getD v [] = u ∧ u.length = n := by
  have h := hi.lens
  have h2 := congrArg (fun l => l[v]?) h
  simp only [List.getElem?_map, hv] at h2
  cases hu : us[v]? with
  | none => rw [hu] at h2; simp at h2
  | some u =>
    rw [hu] at h2
    refine ⟨u, by rw [hi.unary]; exact hu, by simp [List.getD, hu], ?_⟩
    simpa using h2

theorem inv_get' (hi : Inv e p s us) {v : Nat} (hv : v < p.numLabels.length) : ∃ u, s.unary[v]? = some u ∧ us.getD v [] = u ∧ p.numLabels[v]? = some u.length := by
  have h1 := List.getElem?_eq_getElem hv
  obtain ⟨u, a, b, c⟩ := inv_get hi h1
  exact ⟨u, a, b, by rw [h1, c]⟩

theorem sumLoop_spec {f : FactorRec} {t : Term R} (hm : FactorMatches gm f t) {v n : Nat} (hv : t.vars = [v]) (hn : gm.numLabels[v]? = some n) :
    ∀ (u : List R) (i : Nat) (a : R), i + u.length = n →
    sumLoop gm f i u a = some (((u.zipIdx i).map (fun x => x.1 * t.table [x.2])).foldl (· + ·) a)
  | [], _, a, _ => rfl
  | x :: u, i, a, h => by
    have hin : i < n := by rw [List.length_cons] at h; omega
    have hcall : gm.callFactor f [i] = some (t.table [i]) := by
      obtain ⟨fn, g1, g2, g3⟩ := hm.fn
      have hs : fn.shape = [n] := by rw [g2, hv]; simp [restrict, List.getD, hn]
      unfold GM.callFactor
      rw [g1]
      simp only
      rw [ExplicitModel.callFn_eq (by rw [hs]; simp) (by rw [hs]; exact ⟨hin, trivial⟩), g3 _ (by rw [hs]; exact ⟨hin, trivial⟩)]
    rw [sumLoop, hcall]
    simp only
    rw [sumLoop_spec hm hv hn u (i + 1) _ (by rw [List.length_cons] at h; omega)]
    rfl

/-- Buffering the value of a term. -/
theorem inv_buffer (hi : Inv e p s us) {j : Nat} {t : Term R} (ht : p.terms[j]? = some t) (last : Option Nat) (sol : Option S) (h1 : sol ≠ none ∨ (t.vars.length ≠ 2 ∧ sol = s.sol ∧ last = s.last)) :
    Inv e p { s with buffered := s.buffered.set j (termValue e.solve us j t), last := last, sol := sol } us := by
  refine ⟨hi.unary, hi.lens, hi.mapping, by simp [hi.len], ?_, hi.total, ?_, ?_⟩
  · intro k b s' hb hs
    simp only [List.getElem?_set] at hb
    split at hb
    · rename_i hjk
      subst hjk
      split at hb
      · cases hb
        rw [ht] at hs
        cases hs
        exact .inr rfl
      · cases hb
    · exact hi.buffered k b s' hb hs
  · rcases h1 with h1 | ⟨_, h2, h3⟩
    · exact fun _ => h1
    · simp only [h2, h3]; exact hi.last
  · intro k b s' hb hs hl hne
    rcases h1 with h1 | ⟨h1, h2, h3⟩
    · exact h1
    · simp only [h2]
      simp only [List.getElem?_set] at hb
      split at hb
      · rename_i hjk
        subst hjk
        rw [ht] at hs
        cases hs
        exact absurd hl h1
      · exact hi.sol k b s' hb hs hl hne

theorem getVariableValue_spec (hr : Represents gm p) {s : Bound R S} {us : List (List R)} (hi : Inv e p s us) {v : Nat} (hv : v < p.numLabels.length) :
    ∃ r s', getVariableValue e gm s v = some (r, s') ∧ Inv e p s' us ∧ s'.total = s.total ∧
      ((∃ (j : Nat) (t : Term R), p.terms[j]? = some t ∧ t.vars = [v] ∧ r = unaryValue t (us.getD v [])) ∨ ((∀ t ∈ p.terms, t.vars ≠ [v]) ∧ r = 0)) := by
  unfold getVariableValue
  rcases hi.mapping v hv with ⟨j, t, h1, h2, h3⟩ | ⟨h1, h2⟩
  · rw [h1]
    simp only
    have hj : j < s.buffered.length := by rw [hi.len]; exact (List.getElem?_eq_some_iff.mp h2).1
    have hb := List.getElem?_eq_getElem hj
    rw [hb]
    simp only
    have htv : termValue e.solve us j t = unaryValue t (us.getD v []) := by unfold termValue; rw [h3]
    by_cases hn : s.buffered[j] = e.nan
    · rw [if_neg (by simpa using hn)]
      obtain ⟨u, u1, u2, u3⟩ := inv_get' hi hv
      obtain ⟨f, f1, f2⟩ := DP.factor_at hr.toStores h2
      rw [u1, f1]
      simp only
      rw [sumLoop_spec f2 h3 (by rw [hr.labels]; exact u3) u 0 0 (by omega)]
      simp only
      have hval : ((u.zipIdx 0).map (fun x => x.1 * t.table [x.2])).foldl (· + ·) 0 = termValue e.solve us j t := by rw [htv, u2]; rfl
      refine ⟨_, _, rfl, ?_, rfl, .inl ⟨j, t, h2, h3, by rw [hval, htv]⟩⟩
      rw [hval]
      exact inv_buffer hi h2 s.last s.sol (.inr ⟨by rw [h3]; simp, rfl, rfl⟩)
    · rw [if_pos hn]
      refine ⟨_, s, rfl, hi, rfl, .inl ⟨j, t, h2, h3, ?_⟩⟩
      rcases hi.buffered j _ t hb h2 with hh | hh
      · exact absurd hh hn
      · rw [hh, htv]
  · rw [h1]
    exact ⟨0, s, rfl, hi, rfl, .inr ⟨h2, rfl⟩⟩

theorem getFactorValue_spec (hlive : e.lives = true) (hr : Represents gm p) {s : Bound R S} {us : List (List R)} (hi : Inv e p s us) {j : Nat} {t : Term R}
    (ht : p.terms[j]? = some t) (hl : t.vars.length = 2) :
    ∃ s', getFactorValue e gm s j = some (termValue e.solve us j t, s') ∧ Inv e p s' us ∧ s'.total = s.total ∧ s'.sol ≠ none ∧
      (s.buffered[j]? = some e.nan → ∃ v w, t.vars = [v, w] ∧ s'.sol = some (e.solve j (us.getD v []) (us.getD w [])).2) := by
  obtain ⟨v, w, hvw⟩ : ∃ v w, t.vars = [v, w] := List.length_eq_two.mp hl
  obtain ⟨f, f1, f2⟩ := DP.factor_at hr.toStores ht
  have hsz : f.visSize = 2 := by rw [f2.visSize, hl]
  have hj : j < s.buffered.length := by rw [hi.len]; exact (List.getElem?_eq_some_iff.mp ht).1
  have hb := List.getElem?_eq_getElem hj
  unfold getFactorValue
  rw [hb]
  simp only
  by_cases hn : s.buffered[j] = e.nan
  · rw [if_pos hn, f1]
    simp only
    have hv : gm.visAt f 0 = some v := by rw [f2.visAt 0 (by omega), hvw]; rfl
    have hw : gm.visAt f 1 = some w := by rw [f2.visAt 1 (by omega), hvw]; rfl
    rw [hv, if_pos (by omega), hw]
    simp only
    have hvr : v < p.numLabels.length := by have := f2.range v (by simp [hvw]); rwa [hr.labels] at this
    have hwr : w < p.numLabels.length := by have := f2.range w (by simp [hvw]); rwa [hr.labels] at this
    obtain ⟨a, a1, a2, _⟩ := inv_get' hi hvr
    obtain ⟨b, b1, b2, _⟩ := inv_get' hi hwr
    rw [a1, b1]
    simp only
    rw [if_pos hlive]
    have hval : termValue e.solve us j t = (e.solve j a b).1 := by unfold termValue; rw [hvw]; simp only; rw [a2, b2]
    refine ⟨{ s with buffered := s.buffered.set j (e.solve j a b).1, last := some j, sol := some (e.solve j a b).2 }, by rw [hval], ?_, rfl, by simp, ?_⟩
    · rw [← hval]
      exact inv_buffer hi ht _ _ (.inl (by simp))
    · intro _
      exact ⟨v, w, hvw, by rw [a2, b2]⟩
  · rw [if_neg hn]
    refine ⟨s, ?_, hi, rfl, hi.sol j _ t hb ht hl hn, ?_⟩
    · rcases hi.buffered j _ t hb ht with hh | hh
      · exact absurd hh hn
      · rw [← hh]
    · intro hc
      exact absurd (Option.some.inj hc) hn

theorem inv_total {s : Bound R S} {us : List (List R)} (hi : Inv e p s us) {x : R} (hx : x = e.nan ∨ x = totalValue e.solve p us) : Inv e p { s with total := x } us :=
  ⟨hi.unary, hi.lens, hi.mapping, hi.len, hi.buffered, hx, hi.last, hi.sol⟩

theorem totalLoop_spec (hlive : e.lives = true) (hr : Represents gm p) (ho : OneUnary p) (hp : ∀ t ∈ p.terms, t.vars.length = 1 ∨ t.vars.length = 2) {us : List (List R)} :
    ∀ (fs : List FactorRec) (ts : List (Term R)) (j : Nat) (s : Bound R S) (a : R), List.Forall₂ (FactorMatches gm) fs ts → p.terms.drop j = ts →
    Inv e p { s with total := e.nan } us → s.total = a →
    ∃ s', totalLoop e gm fs j s = .ok () s' ∧ Inv e p { s' with total := e.nan } us ∧
      s'.total = ((ts.zipIdx j).map (fun x => termValue e.solve us x.2 x.1)).foldl (· + ·) a
  | [], _, j, s, a, .nil, _, hi, ha => ⟨s, rfl, hi, ha⟩
  | f :: fs, _, j, s, a, .cons (b := t) (l₂ := ts) hf hfs, hd, hi, ha => by
    have ht : p.terms[j]? = some t := by
      have := congrArg (fun l => l[0]?) hd
      simpa using this
    have hd' : p.terms.drop (j + 1) = ts := by
      have := congrArg (List.drop 1) hd
      simpa [List.drop_drop, Nat.add_comm] using this
    rw [totalLoop]
    rcases hp t (List.mem_of_getElem? ht) with hl | hl
    · rw [if_pos (by rw [hf.visSize, hl])]
      obtain ⟨v, hv⟩ := List.length_eq_one_iff.mp hl
      have hat : gm.visAt f 0 = some v := by rw [hf.visAt 0 (by rw [hf.visSize]; omega), hv]; rfl
      rw [hat]
      simp only
      have hvr : v < p.numLabels.length := by have := hf.range v (by simp [hv]); rwa [hr.labels] at this
      obtain ⟨r, s', g1, g2, g3, g4⟩ := getVariableValue_spec hr hi hvr
      have g1' : getVariableValue e gm s v = some (r, { s' with total := s.total }) := by
        unfold getVariableValue at g1 ⊢
        simp only at g1
        revert g1
        cases s.mapping[v]? with
        | none => simp
        | some o =>
          cases o with
          | none => intro g1; simp only [Option.some.injEq, Prod.mk.injEq] at g1 ⊢; obtain ⟨rfl, rfl⟩ := g1; exact ⟨rfl, rfl⟩
          | some k =>
            simp only
            cases s.buffered[k]? with
            | none => simp
            | some b =>
              simp only
              by_cases hb : b ≠ e.nan
              · rw [if_pos hb, if_pos hb]
                intro g1; simp only [Option.some.injEq, Prod.mk.injEq] at g1 ⊢; obtain ⟨rfl, rfl⟩ := g1; exact ⟨rfl, rfl⟩
              · rw [if_neg hb, if_neg hb]
                cases s.unary[v]? with
                | none => simp
                | some uf =>
                  cases gm.factors[k]? with
                  | none => simp
                  | some f =>
                    simp only
                    cases sumLoop gm f 0 uf 0 with
                    | none => simp
                    | some sum =>
                      intro g1; simp only [Option.some.injEq, Prod.mk.injEq] at g1 ⊢; obtain ⟨rfl, rfl⟩ := g1; exact ⟨rfl, rfl⟩
      rw [g1']
      simp only
      have hrv : r = termValue e.solve us j t := by
        rcases g4 with ⟨k, t', k1, k2, k3⟩ | ⟨k1, _⟩
        · have hjk := ho j k t t' ht k1 hl (by rw [hv, k2])
          subst hjk
          rw [ht] at k1
          cases k1
          rw [k3]
          unfold termValue
          rw [hv]
        · exact absurd hv (k1 t (List.mem_of_getElem? ht))
      obtain ⟨s2, q1, q2, q3⟩ := totalLoop_spec hlive hr ho hp fs ts (j + 1) { s' with total := s.total + r } (a + r) hfs hd' (by
        have := inv_total g2 (x := e.nan) (.inl rfl)
        exact this) (by simp [ha])
      refine ⟨s2, q1, q2, ?_⟩
      rw [q3, hrv]
      rfl
    · rw [if_neg (by rw [hf.visSize, hl]; simp), if_pos (by rw [hf.visSize, hl])]
      obtain ⟨s', g1, g2, g3, g4, _⟩ := getFactorValue_spec hlive hr hi ht hl
      have g1' : getFactorValue e gm s j = some (termValue e.solve us j t, { s' with total := s.total }) := by
        unfold getFactorValue at g1 ⊢
        simp only at g1
        revert g1
        cases s.buffered[j]? with
        | none => simp
        | some b =>
          simp only
          by_cases hb : b = e.nan
          · rw [if_pos hb, if_pos hb]
            cases gm.factors[j]? with
            | none => simp
            | some f =>
              simp only
              cases gm.visAt f 0 with
              | none => simp
              | some x =>
                cases (if 1 < f.visSize then gm.visAt f 1 else none) with
                | none => simp
                | some y =>
                  simp only
                  cases s.unary[x]? with
                  | none => simp
                  | some a =>
                    cases s.unary[y]? with
                    | none => simp
                    | some b =>
                      simp only
                      rw [if_pos hlive, if_pos hlive]
                      intro g1; simp only [Option.some.injEq, Prod.mk.injEq] at g1 ⊢; obtain ⟨h1, rfl⟩ := g1; exact ⟨h1, rfl⟩
          · rw [if_neg hb, if_neg hb]
            intro g1; simp only [Option.some.injEq, Prod.mk.injEq] at g1 ⊢; obtain ⟨h1, rfl⟩ := g1; exact ⟨h1, rfl⟩
      rw [g1']
      simp only
      obtain ⟨s2, q1, q2, q3⟩ := totalLoop_spec hlive hr ho hp fs ts (j + 1) { s' with total := s.total + termValue e.solve us j t } (a + termValue e.solve us j t) hfs hd' (by
        have := inv_total g2 (x := e.nan) (.inl rfl)
        exact this) (by simp [ha])
      refine ⟨s2, q1, q2, ?_⟩
      rw [q3]
      rfl

theorem getTotalValue_spec (hlive : e.lives = true) (hr : Represents gm p) (ho : OneUnary p) (hp : ∀ t ∈ p.terms, t.vars.length = 1 ∨ t.vars.length = 2)
    {s : Bound R S} {us : List (List R)} (hi : Inv e p s us) : ∃ s', getTotalValue e gm s = .ok (totalValue e.solve p us) s' ∧ Inv e p s' us := by
  unfold getTotalValue
  by_cases hn : s.total = e.nan
  · rw [if_pos hn]
    obtain ⟨s', h1, h2, h3⟩ := totalLoop_spec hlive hr ho hp gm.factors p.terms 0 { s with total := 0 } 0 hr.factors rfl (inv_total hi (.inl rfl)) rfl
    rw [h1]
    simp only
    have h4 : s'.total = totalValue e.solve p us := h3
    refine ⟨s', by rw [h4], ?_⟩
    have := inv_total h2 (x := s'.total) (.inr h4)
    exact this
  · rw [if_neg hn]
    rcases hi.total with hh | hh
    · exact absurd hh hn
    · exact ⟨s, by rw [hh], hi⟩

theorem invalidate_spec (nan : R) : ∀ (fs : List Nat) (b : List R), (∀ f ∈ fs, f < b.length) →
    ∃ b', invalidate nan fs b = some b' ∧ b'.length = b.length ∧ ∀ (j : Nat) (x : R), b'[j]? = some x → x = nan ∨ (j ∉ fs ∧ b[j]? = some x)
  | [], b, _ => ⟨b, rfl, rfl, fun j x h => .inr ⟨by simp, h⟩⟩
  | f :: fs, b, h => by
    have hf := h f (by simp)
    obtain ⟨b', h1, h2, h3⟩ := invalidate_spec nan fs (b.set f nan) (by intro g hg; simpa using h g (by simp [hg]))
    refine ⟨b', by rw [invalidate, setAt_of_lt nan hf]; exact h1, by simpa using h2, ?_⟩
    intro j x hx
    rcases h3 j x hx with hh | ⟨hh, hb⟩
    · exact .inl hh
    · rw [List.getElem?_set] at hb
      split at hb
      · exact .inl (Option.some.inj hb).symm
      · rename_i hne
        refine .inr ⟨?_, hb⟩
        rw [List.mem_cons]
        rintro (rfl | hc)
        · exact hne rfl
        · exact hh hc

theorem termValue_set (solve : Nat → List R → List R → R × S) (us : List (List R)) (v : Nat) (u : List R) (j : Nat) (t : Term R) (h : v ∉ t.vars) :
    termValue solve (us.set v u) j t = termValue solve us j t := by
  have aux : ∀ w, w ∈ t.vars → (us.set v u).getD w [] = us.getD w [] := by
    intro w hw
    have : v ≠ w := by rintro rfl; exact h hw
    simp [List.getD, List.getElem?_set_ne this]
  unfold termValue
  split
  · rename_i w hw; rw [aux w (by simp [hw])]
  · rename_i w x hw; rw [aux w (by simp [hw]), aux x (by simp [hw])]
  · rfl

theorem setVariable_spec (hr : Represents gm p) {s : Bound R S} {us : List (List R)} (hi : Inv e p s us) {v n : Nat} {values : List R} (hn : p.numLabels[v]? = some n)
    (hl : n ≤ values.length) : ∃ s', setVariable e gm s v values = some s' ∧ Inv e p s' (us.set v (values.take (p.numLabels.getD v 0))) ∧ s'.last = s.last ∧
      ((∀ b ∈ s.buffered, b = e.nan) → ∀ b ∈ s'.buffered, b = e.nan) := by
  obtain ⟨u, u1, u2, u3⟩ := inv_get hi hn
  have hv : v < gm.numLabels.length := by rw [hr.labels]; exact (List.getElem?_eq_some_iff.mp hn).1
  have hadj := hr.adj v hv
  obtain ⟨b', b1, b2, b3⟩ := invalidate_spec e.nan ((List.range p.terms.length).filter (mentions p.terms v)) s.buffered (by
    intro f hf
    rw [hi.len]
    exact List.mem_range.mp (List.mem_filter.mp hf).1)
  unfold setVariable
  rw [u1, hadj]
  simp only
  rw [if_pos (by omega), b1]
  refine ⟨_, rfl, ⟨?_, ?_, hi.mapping, by simp only; rw [b2]; exact hi.len, ?_, .inl rfl, hi.last, ?_⟩, rfl, ?_⟩
  · simp only [hi.unary, u3, List.getD, hn]
    rfl
  · rw [List.map_set]
    have : (values.take (p.numLabels.getD v 0)).length = n := by simp [List.getD, hn, hl]
    rw [this, hi.lens]
    exact List.ext_getElem? (fun i => by
      rw [List.getElem?_set]
      split
      · rename_i h; subst h
        rw [if_pos (List.getElem?_eq_some_iff.mp hn).1, hn]
      · rfl)
  · intro j b t hb ht
    rcases b3 j b hb with hh | ⟨hh, hb'⟩
    · exact .inl hh
    · have hnot : v ∉ t.vars := by
        intro hc
        apply hh
        rw [List.mem_filter]
        refine ⟨List.mem_range.mpr (List.getElem?_eq_some_iff.mp ht).1, ?_⟩
        simp [mentions, ht, hc]
      rw [termValue_set _ _ _ _ _ _ hnot]
      exact hi.buffered j b t hb' ht
  · intro j b t hb ht h2 hne
    rcases b3 j b hb with hh | ⟨hh, hb'⟩
    · exact absurd hh hne
    · exact hi.sol j b t hb' ht h2 hne
  · intro hall b hb
    obtain ⟨j, hj⟩ := List.mem_iff_getElem?.mp hb
    rcases b3 j b hj with hh | ⟨_, hb'⟩
    · exact hh
    · exact hall b (List.mem_of_getElem? hb')

theorem getFactorVariable_ok (hlive : e.lives = true) (hr : Represents gm p) {s : Bound R S} {us : List (List R)} (hi : Inv e p s us) {j : Nat} {t : Term R}
    (ht : p.terms[j]? = some t) (hl : t.vars.length = 2) : ∃ x s', getFactorVariable e gm s j = some (x, s') ∧ Inv e p s' us := by
  unfold getFactorVariable
  by_cases h : s.last ≠ some j
  · rw [if_pos h]
    obtain ⟨s', g1, g2, _, g4, _⟩ := getFactorValue_spec hlive hr hi ht hl
    rw [g1]
    simp only [Option.map_some]
    obtain ⟨x, hx⟩ := Option.ne_none_iff_exists'.mp g4
    rw [hx]
    exact ⟨x, s', rfl, g2⟩
  · rw [if_neg h]
    simp only
    have hne : s.sol ≠ none := hi.last (by rw [not_not.mp h]; simp)
    obtain ⟨x, hx⟩ := Option.ne_none_iff_exists'.mp hne
    rw [hx]
    exact ⟨x, s, rfl, hi⟩

theorem call_spec (hlive : e.lives = true) (hr : Represents gm p) (ho : OneUnary p) {s : Bound R S} {us : List (List R)} (hi : Inv e p s us) (c : Call R)
    (hc : Allowed p c) : ∃ a s', call e gm s c = .ok a s' ∧ Expected e.solve p us c a ∧ Inv e p s' (after p us c) := by
  cases c with
  | setVariable v values =>
    obtain ⟨n, h1, h2⟩ := hc
    obtain ⟨s', g1, g2, _⟩ := setVariable_spec hr hi h1 h2
    exact ⟨_, s', by simp only [call]; rw [g1], rfl, g2⟩
  | getVariable v =>
    obtain ⟨u, u1, u2, _⟩ := inv_get' hi hc
    exact ⟨.weights u, s, by simp only [call, getVariable]; rw [u1], by simp only [Expected]; rw [u2], hi⟩
  | getVariableValue v =>
    obtain ⟨r, s', g1, g2, _, g4⟩ := getVariableValue_spec hr hi hc
    refine ⟨.value r, s', by simp only [call]; rw [g1], ?_, g2⟩
    rcases g4 with ⟨j, t, a1, a2, a3⟩ | ⟨a1, a2⟩
    · exact .inl ⟨j, t, a1, a2, by rw [a3]⟩
    · exact .inr ⟨a1, by rw [a2]⟩
  | getFactorValue j =>
    obtain ⟨t, h1, h2⟩ := hc
    obtain ⟨s', g1, g2, _⟩ := getFactorValue_spec hlive hr hi h1 h2
    exact ⟨_, s', by simp only [call]; rw [g1], ⟨t, h1, rfl⟩, g2⟩
  | getTotalValue =>
    obtain ⟨s', g1, g2⟩ := getTotalValue_spec hlive hr ho hc hi
    exact ⟨_, s', by simp only [call]; rw [g1], rfl, g2⟩
  | getFactorVariable j =>
    obtain ⟨t, h1, h2⟩ := hc
    obtain ⟨x, s', g1, g2⟩ := getFactorVariable_ok hlive hr hi h1 h2
    exact ⟨_, s', by simp only [call]; rw [g1], ⟨x, rfl⟩, g2⟩

theorem run_spec (hlive : e.lives = true) (hr : Represents gm p) (ho : OneUnary p) : ∀ (cs : List (Call R)) (s : Bound R S) (us : List (List R)), Inv e p s us →
    (∀ c ∈ cs, Allowed p c) → ∃ as s', run e gm s cs = .ok as s' ∧ ExpectedAll e.solve p us cs as ∧ Inv e p s' (cs.foldl (after p) us)
  | [], s, us, hi, _ => ⟨[], s, rfl, rfl, hi⟩
  | c :: cs, s, us, hi, h => by
    obtain ⟨a, s1, h1, h2, h3⟩ := call_spec hlive hr ho hi c (h c (by simp))
    obtain ⟨as, s2, g1, g2, g3⟩ := run_spec hlive hr ho cs s1 _ h3 (fun d hd => h d (by simp [hd]))
    refine ⟨a :: as, s2, ?_, ⟨a, as, rfl, h2, g2⟩, g3⟩
    rw [run, h1]
    simp only
    rw [g1]

end
end PrimalBound
end OpenGM
