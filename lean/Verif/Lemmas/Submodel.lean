import Verif.Model.Submodel
import Verif.Spec.Submodel
import Verif.Lemmas.Manipulator
import Verif.Lemmas.ManipulatorModel
import Verif.Lemmas.ManipulatorBuild
import Verif.Lemmas.EnergySum
import Verif.Lemmas.Built
import Mathlib.Tactic.ByContra
/-
Lemmas about the submodel builder.
-/
namespace OpenGM
namespace Submodel
open Spec Manipulator
variable {V : Type}

/-- The fixing that belongs to a selection. -/
def fixing (n : Nat) (L vs : List Nat) : List (Option Nat) := (List.range n).map (fun v => if v ∈ vs then none else some (L.getD v 0))

/-- The new index of a selected variable. -/
def rank (vs : List Nat) (v : Nat) : Nat := vs.idxOf v

theorem fx_fixing {n : Nat} {L vs : List Nat} {v : Nat} (hv : v < n) : fx (fixing n L vs) v = if v ∈ vs then none else some (L.getD v 0) := by
  unfold fx fixing
  rw [List.getElem?_map, List.getElem?_range hv]
  rfl

theorem isFree_fixing {n : Nat} {L vs : List Nat} {v : Nat} (hv : v < n) : isFree (fixing n L vs) v = decide (v ∈ vs) := by
  unfold isFree
  rw [fx_fixing hv]
  by_cases h : v ∈ vs
  · simp [h]
  · simp [h]

theorem rank_get {vs : List Nat} (hs : vs.Pairwise (· < ·)) {i v : Nat} (h : vs[i]? = some v) : rank vs v = i := by
  have hnd : vs.Nodup := hs.imp (fun h => Nat.ne_of_lt h)
  obtain ⟨hi, rfl⟩ := List.getElem?_eq_some_iff.mp h
  exact hnd.idxOf_getElem i hi

theorem get_rank {vs : List Nat} {v : Nat} (h : v ∈ vs) : vs[rank vs v]? = some v := by
  have hlt : vs.idxOf v < vs.length := List.idxOf_lt_length_of_mem h
  unfold rank
  rw [List.getElem?_eq_getElem hlt, List.getElem_idxOf hlt]

theorem rank_mono {vs : List Nat} (hs : vs.Pairwise (· < ·)) {v w : Nat} (hv : v ∈ vs) (hw : w ∈ vs) (hlt : v < w) : rank vs v < rank vs w := by
  obtain ⟨h1, e1⟩ := List.getElem?_eq_some_iff.mp (get_rank hv)
  obtain ⟨h2, e2⟩ := List.getElem?_eq_some_iff.mp (get_rank hw)
  rcases Nat.lt_trichotomy (rank vs v) (rank vs w) with h | h | h
  · exact h
  · exfalso
    have : v = w := by
      have a := get_rank hv
      rw [h, get_rank hw] at a
      exact (Option.some.inj a).symm
    omega
  · exfalso
    have := List.pairwise_iff_getElem.mp hs _ _ h2 h1 h
    omega

/-- The members of the optimiser for a selection. -/
structure Holds (s : Opt V) (p : Problem V) (L vs : List Nat) : Prop where
  rep : Represents s.gm p
  labels : s.labels = L
  lenL : L.length = p.numLabels.length
  count : s.nLocalVar = vs.length
  entry : ∀ i v : Nat, vs[i]? = some v → s.localVariables[i]? = some v ∧ s.globalToLocal[v]? = some i ∧ s.space[i]? = p.numLabels[v]?
  inSub : ∀ v, v < p.numLabels.length → s.inSubmodel[v]? = some (decide (v ∈ vs))
  lenLocal : s.localVariables.length = p.numLabels.length
  lenGlobal : s.globalToLocal.length = p.numLabels.length
  lenSpace : s.space.length = p.numLabels.length
  lenIn : s.inSubmodel.length = p.numLabels.length
  handled : s.handled = List.replicate p.terms.length false
  range : ∀ v ∈ vs, v < p.numLabels.length
  sorted : vs.Pairwise (· < ·)

/-- The numbers of labels of the selected variables. -/
def shapeOf (p : Problem V) (vs : List Nat) : List Nat := restrict p.numLabels vs

theorem shapeOf_get {p : Problem V} {vs : List Nat} (hr : ∀ v ∈ vs, v < p.numLabels.length) {i v : Nat} (h : vs[i]? = some v) :
    (shapeOf p vs)[i]? = p.numLabels[v]? := by
  have := hr v (List.mem_of_getElem? h)
  simp [shapeOf, restrict, h, List.getElem?_eq_getElem this]

theorem Holds.space_take {s : Opt V} {p : Problem V} {L vs : List Nat} (h : Holds s p L vs) : s.space.take s.nLocalVar = shapeOf p vs := by
  apply List.ext_getElem?
  intro i
  rw [List.getElem?_take, h.count]
  by_cases hi : i < vs.length
  · rw [if_pos hi, shapeOf_get h.range (List.getElem?_eq_getElem hi)]
    exact (h.entry i _ (List.getElem?_eq_getElem hi)).2.2
  · rw [if_neg hi, List.getElem?_eq_none (by simp [shapeOf, restrict]; omega)]

theorem localIndex_spec {s : Opt V} {p : Problem V} {L vs : List Nat} (h : Holds s p L vs) {f : FactorRec} {t : Term V} (hm : FactorMatches s.gm f t)
    {pos v : Nat} (hp : t.vars[pos]? = some v) (hv : v ∈ vs) : localIndex s f pos = some (rank vs v) := by
  have hpos : pos < f.visSize := by rw [hm.visSize]; exact (List.getElem?_eq_some_iff.mp hp).1
  unfold localIndex
  rw [hm.visAt pos hpos, hp]
  simp only
  rw [(h.entry _ v (get_rank hv)).2.1]
  simp only
  rw [if_pos]
  rw [h.count]
  exact List.idxOf_lt_length_of_mem hv

theorem fixedLabel_spec {s : Opt V} {p : Problem V} {L vs : List Nat} (h : Holds s p L vs) {f : FactorRec} {t : Term V} (hm : FactorMatches s.gm f t)
    {pos v : Nat} (hp : t.vars[pos]? = some v) : fixedLabel s f pos = some (pos, L.getD v 0) := by
  have hpos : pos < f.visSize := by rw [hm.visSize]; exact (List.getElem?_eq_some_iff.mp hp).1
  have hv : v < L.length := by
    have := hm.range v (List.mem_of_getElem? hp)
    rw [h.rep.labels] at this
    rw [h.lenL]; exact this
  unfold fixedLabel
  rw [hm.visAt pos hpos, hp]
  simp only
  rw [h.labels, List.getElem?_eq_getElem hv, List.getD_eq_getElem?_getD, List.getElem?_eq_getElem hv]
  rfl

/-- Positions of the free variables, counted from `i`. -/
def freePositions (fix : List (Option Nat)) : Nat → List Nat → List Nat
  | _, [] => []
  | i, v :: vs => if isFree fix v then i :: freePositions fix (i + 1) vs else freePositions fix (i + 1) vs

theorem freePositions_mem (fix : List (Option Nat)) : ∀ (vs : List Nat) (i q : Nat), q ∈ freePositions fix i vs →
    i ≤ q ∧ ∃ v, vs[q - i]? = some v ∧ isFree fix v = true
  | [], i, q, h => by simp [freePositions] at h
  | v :: vs, i, q, h => by
    have step : q ∈ freePositions fix (i + 1) vs → i ≤ q ∧ ∃ w, (v :: vs)[q - i]? = some w ∧ isFree fix w = true := by
      intro h'
      obtain ⟨h1, w, h2, h3⟩ := freePositions_mem fix vs (i + 1) q h'
      refine ⟨by omega, w, ?_, h3⟩
      have : q - i = (q - (i + 1)) + 1 := by omega
      rw [this, List.getElem?_cons_succ]
      exact h2
    unfold freePositions at h
    split at h
    · rename_i hf
      rcases List.mem_cons.mp h with rfl | h
      · exact ⟨Nat.le_refl _, v, by simp, hf⟩
      · exact step h
    · exact step h

theorem freePositions_map (fix : List (Option Nat)) {A : Type} (g : Nat → A) : ∀ (vs : List Nat) (i : Nat) (a : Nat → A),
    (∀ j v : Nat, vs[j]? = some v → a (i + j) = g v) → (freePositions fix i vs).map a = (vs.filter (isFree fix)).map g
  | [], i, a, h => rfl
  | v :: vs, i, a, h => by
    have ih := freePositions_map fix g vs (i + 1) a (fun j w hw => by
      have := h (j + 1) w (by rw [List.getElem?_cons_succ]; exact hw)
      rw [← this]; congr 1; omega)
    have h0 := h 0 v (by simp)
    rw [Nat.add_zero] at h0
    unfold freePositions
    by_cases hf : isFree fix v = true
    · rw [if_pos hf, List.filter_cons, if_pos hf, List.map_cons, List.map_cons, ih, h0]
    · rw [if_neg hf, List.filter_cons, if_neg hf, ih]

theorem splitPositions_spec {s : Opt V} {p : Problem V} {L vs : List Nat} (h : Holds s p L vs) {f : FactorRec} {t : Term V} (hm : FactorMatches s.gm f t) :
    ∀ (k i : Nat) (F M : List Nat), i + k = f.visSize →
      splitPositions s f i k F M = some (F ++ (fixPairs (fixing p.numLabels.length L vs) i (t.vars.drop i)).map Prod.fst,
        M ++ freePositions (fixing p.numLabels.length L vs) i (t.vars.drop i)) := by
  intro k
  induction k with
  | zero =>
    intro i F M hik
    have : t.vars.drop i = [] := List.drop_eq_nil_of_le (by rw [← hm.visSize]; omega)
    simp [splitPositions, this, fixPairs, freePositions]
  | succ k ih =>
    intro i F M hik
    have hi : i < t.vars.length := by rw [← hm.visSize]; omega
    have hd : t.vars.drop i = t.vars[i] :: t.vars.drop (i + 1) := List.drop_eq_getElem_cons hi
    have hr : t.vars[i] < p.numLabels.length := by rw [← h.rep.labels]; exact hm.range _ (List.getElem_mem hi)
    unfold splitPositions
    rw [hm.visAt i (by omega), List.getElem?_eq_getElem hi]
    simp only
    rw [h.inSub _ hr, hd]
    have hfx := fx_fixing (L := L) (vs := vs) hr
    have hfr := isFree_fixing (L := L) (vs := vs) hr
    by_cases hv : t.vars[i] ∈ vs
    · simp only [hv, decide_true]
      rw [ih (i + 1) _ _ (by omega)]
      rw [if_pos hv] at hfx
      rw [decide_eq_true hv] at hfr
      simp only [fixPairs, hfx, freePositions, hfr, if_true]
      simp
    · simp only [hv, decide_false]
      rw [ih (i + 1) _ _ (by omega)]
      rw [if_neg hv] at hfx
      rw [decide_eq_false hv] at hfr
      simp only [fixPairs, hfx, freePositions, hfr]
      simp

theorem placed {s : Opt V} {p : Problem V} {L vs : List Nat} (h : Holds s p L vs) {f : FactorRec} {t : Term V} (hm : FactorMatches s.gm f t) :
    Placed s.gm.numLabels (fixing p.numLabels.length L vs) (rank vs) (shapeOf p vs) t.vars := by
  have hfree : ∀ v ∈ t.vars, isFree (fixing p.numLabels.length L vs) v = true → v ∈ vs := by
    intro v hv hf
    have hr := hm.range v hv
    rw [h.rep.labels] at hr
    rw [isFree_fixing hr] at hf
    simpa using hf
  refine ⟨?_, ?_⟩
  · intro v hv hf
    rw [shapeOf_get h.range (get_rank (hfree v hv hf)), h.rep.labels]
  · intro v hv w hw hf hg hlt
    exact rank_mono h.sorted (hfree v hv hf) (hfree w hw hg) hlt

theorem addFactorTo_spec {s : Opt V} {p : Problem V} {L vs : List Nat} (h : Holds s p L vs) {f : FactorRec} {t : Term V} (hm : FactorMatches s.gm f t)
    {localVi v : Nat} (hl : vs[localVi]? = some v) (hv : v ∈ t.vars) {g : GM (Option V)} {us : List (Term (Option V))}
    (hg : Represents g ⟨shapeOf p vs, us⟩) (hf : g.functions.length = 2) :
    ∃ g' u, addFactorTo s f localVi g = some g' ∧ Represents g' ⟨shapeOf p vs, us ++ [u]⟩ ∧ g'.functions.length = 2 ∧
      Mirrors p (fixing p.numLabels.length L vs) (rank vs) t u := by
  have hpl := placed h hm
  have hgn : g.numLabels = shapeOf p vs := hg.labels
  rw [← hgn] at hpl
  have hfree : ∀ w ∈ t.vars, isFree (fixing p.numLabels.length L vs) w = decide (w ∈ vs) := by
    intro w hw
    have hr := hm.range w hw
    rw [h.rep.labels] at hr
    exact isFree_fixing hr
  have hvs : v ∈ vs := List.mem_of_getElem? hl
  unfold addFactorTo
  by_cases h1 : f.visSize = 1
  · rw [if_pos h1]
    have ht : t.vars = [v] := by
      have hlen := hm.visSize
      rw [h1] at hlen
      match hvars : t.vars, hlen with
      | [w], _ => rw [hvars] at hv; simp at hv; rw [hv]
    have hr := rank_get h.sorted hl
    rw [localIndex_spec h hm (pos := 0) (by rw [ht]; rfl) hvs, hr]
    simp only
    rw [if_pos trivial]
    obtain ⟨g', u, e1, e2, e3, e4⟩ := addTerm_view' (ty := 0) h.rep hm hg (by omega) hpl (by
      intro w hw
      rw [hfree w hw]
      rw [ht] at hw
      simp at hw
      simp [hw, hvs])
    refine ⟨g', u, ?_, e2, by omega, e4⟩
    rw [← e1]
    have : (t.vars.filter (isFree (fixing p.numLabels.length L vs))).map (rank vs) = [localVi] := by
      rw [List.filter_eq_self.mpr (by intro w hw; rw [hfree w hw]; rw [ht] at hw; simp at hw; simp [hw, hvs]), ht, List.map_cons, List.map_nil, hr]
    rw [this]
  · rw [if_neg h1, splitPositions_spec h hm f.visSize 0 [] [] (by omega)]
    simp only [List.nil_append, List.drop_zero, List.length_map]
    generalize hfix : fixing p.numLabels.length L vs = fix at *
    have hlen1 : (freePositions fix 0 t.vars).length = (t.vars.filter (isFree fix)).length := by
      have := congrArg List.length (freePositions_map fix (fun v => (t.vars.idxOf v, v)) t.vars 0 (fun j => (t.vars.idxOf (t.vars.getD j 0), t.vars.getD j 0)) (by
        intro j w hw
        simp [List.getD_eq_getElem?_getD, hw]))
      simpa using this
    have hpos : (freePositions fix 0 t.vars).length > 0 := by
      rw [hlen1]
      apply List.length_pos_of_mem (a := v)
      exact List.mem_filter.mpr ⟨hv, by rw [hfree v hv]; simpa using hvs⟩
    rw [if_pos hpos]
    have hmapFree : (freePositions fix 0 t.vars).mapM (localIndex s f) = some ((t.vars.filter (isFree fix)).map (rank vs)) := by
      rw [mapM_eq_some_map (h := fun j => rank vs (t.vars.getD j 0))]
      · rw [freePositions_map fix (rank vs) t.vars 0]
        intro j w hw
        simp [List.getD_eq_getElem?_getD, hw]
      · intro q hq
        obtain ⟨_, w, h2, h3⟩ := freePositions_mem fix t.vars 0 q hq
        rw [Nat.sub_zero] at h2
        have hw := List.mem_of_getElem? h2
        rw [hfree w hw] at h3
        rw [localIndex_spec h hm h2 (by simpa using h3), List.getD_eq_getElem?_getD, h2]
        rfl
    by_cases h0 : (fixPairs fix 0 t.vars).length = 0
    · rw [if_pos h0]
      have hall : ∀ w ∈ t.vars, isFree fix w = true := by
        have := length_fixPairs fix t.vars 0
        rw [h0, Nat.zero_add] at this
        exact List.length_filter_eq_length_iff.mp this
      have hmap : (List.range f.visSize).mapM (localIndex s f) = some ((t.vars.filter (isFree fix)).map (rank vs)) := by
        rw [List.filter_eq_self.mpr hall, mapM_eq_some_map (h := fun j => rank vs (t.vars.getD j 0))]
        · congr 1
          apply List.ext_getElem?
          intro j
          rw [List.getElem?_map, List.getElem?_map, hm.visSize]
          by_cases hj : j < t.vars.length
          · rw [List.getElem?_range hj, List.getElem?_eq_getElem hj]
            simp [List.getD_eq_getElem?_getD, List.getElem?_eq_getElem hj]
          · rw [List.getElem?_eq_none (by simpa using hj), List.getElem?_eq_none (by omega)]
            rfl
        · intro q hq
          have hq' : q < t.vars.length := by rw [← hm.visSize]; exact List.mem_range.mp hq
          have hw := hall _ (List.getElem_mem hq')
          rw [hfree _ (List.getElem_mem hq')] at hw
          rw [localIndex_spec h hm (List.getElem?_eq_getElem hq') (by simpa using hw), List.getD_eq_getElem?_getD, List.getElem?_eq_getElem hq']
          rfl
      rw [hmap]
      obtain ⟨g', u, e1, e2, e3, e4⟩ := addTerm_view' (ty := 0) h.rep hm hg (by omega) hpl hall
      exact ⟨g', u, e1, e2, by omega, e4⟩
    · rw [if_neg h0, hmapFree]
      have hmapFix : ((fixPairs fix 0 t.vars).map Prod.fst).mapM (fixedLabel s f) = some (fixPairs fix 0 t.vars) := by
        rw [mapM_eq_some_map (h := fun j => (j, L.getD (t.vars.getD j 0) 0))]
        · congr 1
          rw [List.map_map]
          conv => rhs; rw [← List.map_id (fixPairs fix 0 t.vars)]
          apply List.map_congr_left
          intro e he
          obtain ⟨_, _, w, h2, h3⟩ := fixPairs_mem fix t.vars 0 e.1 e.2 he
          rw [Nat.sub_zero] at h2
          have hr := hm.range w (List.mem_of_getElem? h2)
          rw [h.rep.labels] at hr
          rw [← hfix, fx_fixing hr] at h3
          split at h3
          · cases h3
          · have h3' := Option.some.inj h3
            have hw0 : t.vars.getD e.1 0 = w := by rw [List.getD_eq_getElem?_getD, h2]; rfl
            show (e.1, L.getD (t.vars.getD e.1 0) 0) = e
            rw [hw0, h3']
        · intro q hq
          obtain ⟨e, he, rfl⟩ := List.mem_map.mp hq
          obtain ⟨_, _, w, h2, h3⟩ := fixPairs_mem fix t.vars 0 e.1 e.2 he
          rw [Nat.sub_zero] at h2
          rw [fixedLabel_spec h hm h2, List.getD_eq_getElem?_getD (l := t.vars), h2]
          rfl
      rw [hmapFix]
      obtain ⟨g', u, e1, e2, e3, e4⟩ := addTerm_viewFix' (ty := 1) h.rep hm (fix := fix) (by
        rw [← hfix, h.rep.labels]; simp [fixing]) hg (by omega) hpl (List.ne_nil_of_mem hv)
      exact ⟨g', u, e1, e2, by omega, e4⟩

/-- The factors done so far are marked, and are in the submodel. -/
structure Building (p : Problem V) (L vs done : List Nat) (handled : List Bool) (g : GM (Option V)) : Prop where
  len : handled.length = p.terms.length
  marks : ∀ j, j < p.terms.length → handled[j]? = some (decide (j ∈ done))
  nodup : done.Nodup
  range : ∀ j ∈ done, j < p.terms.length
  model : ∃ us, Represents g ⟨shapeOf p vs, us⟩ ∧ g.functions.length = 2 ∧
    List.Forall₂ (fun j u => ∃ t, p.terms[j]? = some t ∧ Mirrors p (fixing p.numLabels.length L vs) (rank vs) t u) done us

theorem factorLoop_spec {s : Opt V} {p : Problem V} {L vs : List Nat} (h : Holds s p L vs) {localVi v : Nat} (hl : vs[localVi]? = some v) :
    ∀ (fis done : List Nat) (handled : List Bool) (g : GM (Option V)), (∀ j ∈ fis, mentions p.terms v j = true) → Building p L vs done handled g →
      ∃ done' handled' g', factorLoop s localVi fis handled g = some (handled', g') ∧ Building p L vs done' handled' g' ∧
        ∀ j, j ∈ done' ↔ j ∈ done ∨ j ∈ fis
  | [], done, handled, g, hfis, hB => ⟨done, handled, g, rfl, hB, by simp⟩
  | fi :: fis, done, handled, g, hfis, hB => by
    have hmen := hfis fi (by simp)
    unfold mentions at hmen
    cases ht : p.terms[fi]? with
    | none => rw [ht] at hmen; simp at hmen
    | some t =>
      rw [ht] at hmen
      have hmem : v ∈ t.vars := by simpa using hmen
      have hfi := (List.getElem?_eq_some_iff.mp ht).1
      unfold factorLoop
      rw [hB.marks fi hfi]
      by_cases hd : fi ∈ done
      · simp only [hd, decide_true]
        obtain ⟨done', handled', g', e1, e2, e3⟩ := factorLoop_spec h hl fis done handled g (fun j hj => hfis j (by simp [hj])) hB
        refine ⟨done', handled', g', e1, e2, fun j => ?_⟩
        rw [e3 j, List.mem_cons]
        constructor
        · rintro (h | h)
          · exact Or.inl h
          · exact Or.inr (Or.inr h)
        · rintro (h | rfl | h)
          · exact Or.inl h
          · exact Or.inl hd
          · exact Or.inr h
      · simp only [hd, decide_false]
        obtain ⟨f, hfe, hm⟩ : ∃ f, s.gm.factors[fi]? = some f ∧ FactorMatches s.gm f t := by
          have hlen := h.rep.factors.length_eq
          have hfi' : fi < s.gm.factors.length := by omega
          refine ⟨_, List.getElem?_eq_getElem hfi', ?_⟩
          have := (List.forall₂_iff_get.mp h.rep.factors).2 fi hfi' hfi
          rw [List.get_eq_getElem, List.get_eq_getElem] at this
          obtain ⟨_, ht'⟩ := List.getElem?_eq_some_iff.mp ht
          rw [ht'] at this
          exact this
        rw [hfe]
        simp only
        obtain ⟨us, hus, hfun, hall⟩ := hB.model
        obtain ⟨g1, u, a1, a2, a3, a4⟩ := addFactorTo_spec h hm hl hmem hus hfun
        rw [a1]
        simp only
        obtain ⟨done', handled', g', e1, e2, e3⟩ := factorLoop_spec h hl fis (done ++ [fi]) (handled.set fi true) g1
          (fun j hj => hfis j (by simp [hj])) ⟨by rw [List.length_set]; exact hB.len, by
            intro j hj
            rw [List.getElem?_set]
            by_cases hji : fi = j
            · subst hji
              rw [if_pos rfl, if_pos (by rw [hB.len]; exact hj)]
              simp
            · rw [if_neg hji, hB.marks j hj]
              congr 1
              simp only [List.mem_append, List.mem_singleton, decide_eq_decide]
              constructor
              · exact Or.inl
              · rintro (h | h)
                · exact h
                · exact absurd h.symm hji, by
            rw [List.nodup_append]
            exact ⟨hB.nodup, by simp, by intro a ha b hb hab; simp at hb; subst hb; subst hab; exact hd ha⟩, by
            intro j hj
            rcases List.mem_append.mp hj with hj | hj
            · exact hB.range j hj
            · simp at hj; rw [hj]; exact hfi,
            us ++ [u], a2, a3, List.rel_append hall (List.Forall₂.cons ⟨t, ht, a4⟩ List.Forall₂.nil)⟩
        refine ⟨done', handled', g', e1, e2, fun j => ?_⟩
        rw [e3 j, List.mem_append, List.mem_singleton, List.mem_cons]
        constructor
        · rintro ((h | h) | h)
          · exact Or.inl h
          · exact Or.inr (Or.inl h)
          · exact Or.inr (Or.inr h)
        · rintro (h | h | h)
          · exact Or.inl (Or.inl h)
          · exact Or.inl (Or.inr h)
          · exact Or.inr h

theorem adj_entry {s : Opt V} {p : Problem V} {L vs : List Nat} (h : Holds s p L vs) {v : Nat} (hv : v ∈ vs) :
    s.gm.adj[v]? = some ((List.range p.terms.length).filter (mentions p.terms v)) :=
  h.rep.adj v (by rw [h.rep.labels]; exact h.range v hv)

theorem variableLoop_spec {s : Opt V} {p : Problem V} {L vs : List Nat} (h : Holds s p L vs) :
    ∀ (is done : List Nat) (handled : List Bool) (g : GM (Option V)), (∀ i ∈ is, i < vs.length) → Building p L vs done handled g →
      ∃ done' handled' g', variableLoop s is handled g = some (handled', g') ∧ Building p L vs done' handled' g' ∧
        ∀ j, j ∈ done' ↔ j ∈ done ∨ (j < p.terms.length ∧ ∃ i ∈ is, mentions p.terms (vs.getD i 0) j = true)
  | [], done, handled, g, his, hB => ⟨done, handled, g, rfl, hB, by simp⟩
  | i :: is, done, handled, g, his, hB => by
    have hi := his i (by simp)
    have hl := List.getElem?_eq_getElem hi
    unfold variableLoop
    rw [(h.entry i _ hl).1]
    simp only
    rw [adj_entry h (List.getElem_mem hi)]
    simp only
    obtain ⟨d1, h1, g1, e1, e2, e3⟩ := factorLoop_spec h hl ((List.range p.terms.length).filter (mentions p.terms vs[i])) done handled g
      (by intro j hj; exact (List.mem_filter.mp hj).2) hB
    rw [e1]
    simp only
    obtain ⟨d2, h2, g2, f1, f2, f3⟩ := variableLoop_spec h is d1 h1 g1 (fun j hj => his j (by simp [hj])) e2
    refine ⟨d2, h2, g2, f1, f2, fun j => ?_⟩
    have hgd : vs.getD i 0 = vs[i] := by rw [List.getD_eq_getElem?_getD, hl]; rfl
    rw [f3 j, e3 j, List.mem_filter, List.mem_range]
    constructor
    · rintro ((h | ⟨h, h'⟩) | ⟨h, k, hk, h'⟩)
      · exact Or.inl h
      · exact Or.inr ⟨h, i, by simp, by rw [hgd]; exact h'⟩
      · exact Or.inr ⟨h, k, by simp [hk], h'⟩
    · rintro (h | ⟨h, k, hk, h'⟩)
      · exact Or.inl (Or.inl h)
      · rcases List.mem_cons.mp hk with rfl | hk
        · exact Or.inl (Or.inr ⟨h, by rw [← hgd]; exact h'⟩)
        · exact Or.inr ⟨h, k, hk, h'⟩

theorem cleanFactors_spec : ∀ (fis : List Nat) (handled : List Bool), (∀ j ∈ fis, j < handled.length) →
    ∃ handled', cleanFactors fis handled = some handled' ∧ handled'.length = handled.length ∧
      ∀ j, j < handled.length → handled'[j]? = if j ∈ fis then some false else handled[j]?
  | [], handled, h => ⟨handled, rfl, rfl, by simp⟩
  | fi :: fis, handled, h => by
    unfold cleanFactors
    rw [setAt_of_lt false (h fi (by simp))]
    simp only
    obtain ⟨h', e1, e2, e3⟩ := cleanFactors_spec fis (handled.set fi false) (by intro j hj; rw [List.length_set]; exact h j (by simp [hj]))
    rw [List.length_set] at e2
    refine ⟨h', e1, e2, fun j hj => ?_⟩
    rw [e3 j (by rw [List.length_set]; exact hj), List.getElem?_set]
    by_cases h1 : j ∈ fis
    · rw [if_pos h1, if_pos (by simp [h1])]
    · rw [if_neg h1]
      by_cases h2 : fi = j
      · rw [if_pos h2, if_pos (by omega), if_pos (by simp [h2])]
      · rw [if_neg h2, if_neg (by simp only [List.mem_cons, not_or]; exact ⟨fun h => h2 h.symm, h1⟩)]

theorem cleanLoop_spec {s : Opt V} {p : Problem V} {L vs : List Nat} (h : Holds s p L vs) :
    ∀ (is : List Nat) (handled : List Bool), (∀ i ∈ is, i < vs.length) → handled.length = p.terms.length →
      ∃ handled', cleanLoop s is handled = some handled' ∧ handled'.length = p.terms.length ∧
        ∀ j, j < p.terms.length → handled'[j]? = if ∃ i ∈ is, mentions p.terms (vs.getD i 0) j = true then some false else handled[j]?
  | [], handled, his, hlen => ⟨handled, rfl, hlen, by simp⟩
  | i :: is, handled, his, hlen => by
    have hi := his i (by simp)
    have hl := List.getElem?_eq_getElem hi
    have hgd : vs.getD i 0 = vs[i] := by rw [List.getD_eq_getElem?_getD, hl]; rfl
    unfold cleanLoop
    rw [(h.entry i _ hl).1]
    simp only
    rw [adj_entry h (List.getElem_mem hi)]
    simp only
    obtain ⟨h1, e1, e2, e3⟩ := cleanFactors_spec ((List.range p.terms.length).filter (mentions p.terms vs[i])) handled (by
      intro j hj
      rw [hlen]
      exact List.mem_range.mp (List.mem_filter.mp hj).1)
    rw [e1]
    simp only
    obtain ⟨h2, f1, f2, f3⟩ := cleanLoop_spec h is h1 (fun j hj => his j (by simp [hj])) (by omega)
    refine ⟨h2, f1, f2, fun j hj => ?_⟩
    rw [f3 j hj, e3 j (by omega)]
    by_cases ha : ∃ k ∈ is, mentions p.terms (vs.getD k 0) j = true
    · obtain ⟨k, hk, hk'⟩ := ha
      rw [if_pos ⟨k, hk, hk'⟩, if_pos ⟨k, by simp [hk], hk'⟩]
    · rw [if_neg ha]
      by_cases hb : mentions p.terms vs[i] j = true
      · rw [if_pos (List.mem_filter.mpr ⟨List.mem_range.mpr hj, hb⟩), if_pos ⟨i, by simp, by rw [hgd]; exact hb⟩]
      · rw [if_neg (fun hm => hb (List.mem_filter.mp hm).2), if_neg]
        rintro ⟨k, hk, hk'⟩
        rcases List.mem_cons.mp hk with rfl | hk
        · exact hb (by rw [← hgd]; exact hk')
        · exact ha ⟨k, hk, hk'⟩

/-- The terms with a selected variable, by their index. -/
def touchedIndices (p : Problem V) (vs : List Nat) : List Nat :=
  (List.range p.terms.length).filter (fun j => match p.terms[j]? with | some t => t.vars.any (fun v => vs.contains v) | none => false)

theorem touched_map {A : Type} (p : Problem V) (vs : List Nat) (g : Term V → A) (d : A) :
    (touchedIndices p vs).map (fun j => ((p.terms[j]?).map g).getD d) = (p.touching vs).terms.map g := by
  have key : ∀ (ts : List (Term V)) (k : Nat) (q : Nat → Option (Term V)), (∀ j, j < ts.length → q (k + j) = ts[j]?) →
      ((List.range' k ts.length).filter (fun j => match q j with | some t => t.vars.any (fun v => vs.contains v) | none => false)).map
        (fun j => ((q j).map g).getD d) = (ts.filter (fun t => t.vars.any (fun v => vs.contains v))).map g := by
    intro ts
    induction ts with
    | nil => intro k q h; rfl
    | cons t ts ih =>
      intro k q h
      have h0 := h 0 (by simp)
      rw [Nat.add_zero, List.getElem?_cons_zero] at h0
      have ih' := ih (k + 1) q (fun j hj => by
        have := h (j + 1) (by simp; omega)
        rw [List.getElem?_cons_succ] at this
        rw [← this]; congr 1; omega)
      rw [List.length_cons, List.range'_succ, List.filter_cons, List.filter_cons, h0]
      simp only
      split
      · rw [List.map_cons, List.map_cons, ih', h0]
        rfl
      · exact ih'
  have := key p.terms 0 (fun j => p.terms[j]?) (fun j hj => by rw [Nat.zero_add])
  unfold touchedIndices Problem.touching
  rw [List.range_eq_range']
  exact this

theorem build_spec {s : Opt V} {p : Problem V} {L vs : List Nat} (h : Holds s p L vs) :
    ∃ g us done, s.build = some (g, s) ∧ Represents g ⟨shapeOf p vs, us⟩ ∧ done.Perm (touchedIndices p vs) ∧
      List.Forall₂ (fun j u => ∃ t, p.terms[j]? = some t ∧ Mirrors p (fixing p.numLabels.length L vs) (rank vs) t u) done us := by
  unfold Opt.build
  rw [h.space_take, h.count]
  obtain ⟨done, handled, g, e1, e2, e3⟩ := variableLoop_spec h (List.range vs.length) [] s.handled (GM.ofSpace 2 (shapeOf p vs)) (by simp) ⟨by
    rw [h.handled]; simp, by
    intro j hj
    rw [h.handled, List.getElem?_replicate, if_pos hj]
    simp, by simp, by simp, [], Manipulator.represents_ofSpace 2 _, by simp [GM.ofSpace], List.Forall₂.nil⟩
  rw [e1]
  simp only
  obtain ⟨handled', f1, f2, f3⟩ := cleanLoop_spec h (List.range vs.length) handled (by simp) e2.len
  rw [f1]
  simp only
  have hclean : handled' = s.handled := by
    rw [h.handled]
    apply List.ext_getElem?
    intro j
    by_cases hj : j < p.terms.length
    · rw [f3 j hj, List.getElem?_replicate, if_pos hj]
      by_cases hm : ∃ i ∈ List.range vs.length, mentions p.terms (vs.getD i 0) j = true
      · rw [if_pos hm]
      · rw [if_neg hm, e2.marks j hj]
        congr 1
        simp only [decide_eq_false_iff_not]
        intro hd
        rcases (e3 j).mp hd with hd | ⟨_, hd⟩
        · simp at hd
        · exact hm hd
    · rw [List.getElem?_eq_none (by omega), List.getElem?_eq_none (by simpa using hj)]
  obtain ⟨us, u1, _, u3⟩ := e2.model
  refine ⟨g, us, done, by rw [hclean, ← h.count], u1, ?_, u3⟩
  unfold touchedIndices
  rw [List.perm_ext_iff_of_nodup e2.nodup (List.Nodup.filter _ List.nodup_range)]
  intro j
  rw [e3 j, List.mem_filter, List.mem_range]
  constructor
  · rintro (h' | ⟨hj, i, hi, hm⟩)
    · simp at h'
    · refine ⟨hj, ?_⟩
      unfold mentions at hm
      rw [List.getElem?_eq_getElem hj] at hm ⊢
      have hi' := List.mem_range.mp hi
      simp only [decide_eq_true_eq] at hm
      simp only [List.any_eq_true, List.contains_iff_mem]
      refine ⟨_, hm, ?_⟩
      rw [List.getD_eq_getElem?_getD, List.getElem?_eq_getElem hi']
      exact List.getElem_mem hi'
  · rintro ⟨hj, hm⟩
    refine Or.inr ⟨hj, ?_⟩
    rw [List.getElem?_eq_getElem hj] at hm
    simp only [List.any_eq_true, List.contains_iff_mem] at hm
    obtain ⟨v, h1, h2⟩ := hm
    refine ⟨vs.idxOf v, List.mem_range.mpr (List.idxOf_lt_length_of_mem h2), ?_⟩
    have := get_rank h2
    unfold rank at this
    unfold mentions
    rw [List.getElem?_eq_getElem hj, List.getD_eq_getElem?_getD, this]
    simpa using h1

/-- The labeling of the submodel that belongs to a labeling. -/
theorem merged_labeling {p : Problem V} {L vs y x : List Nat} (hr : ∀ v ∈ vs, v < p.numLabels.length) (hx : p.Labeling x) (hm : PutInto L vs y x) (us : List (Term (Option V))) :
    (⟨shapeOf p vs, us⟩ : Problem (Option V)).Labeling y := by
  refine ⟨by rw [hm.sizeY]; simp [shapeOf, restrict], ?_⟩
  intro i l n hl hn
  have hi : i < vs.length := by rw [← hm.sizeY]; exact (List.getElem?_eq_some_iff.mp hl).1
  have hv := List.getElem?_eq_getElem hi
  rw [shapeOf_get hr hv] at hn
  exact hx.2 _ l n (by rw [hm.chosen i _ hv]; exact hl) hn

theorem sub_value (o : Operation V) (ho : o.IsCommMonoid) {s : Opt V} {p : Problem V} {L vs : List Nat} (h : Holds s p L vs) {g : GM (Option V)}
    {us : List (Term (Option V))} {done : List Nat} (hg : Represents g ⟨shapeOf p vs, us⟩) (hd : done.Perm (touchedIndices p vs))
    (hall : List.Forall₂ (fun j u => ∃ t, p.terms[j]? = some t ∧ Mirrors p (fixing p.numLabels.length L vs) (rank vs) t u) done us)
    {y x : List Nat} (hx : p.Labeling x) (hm : PutInto L vs y x) :
    GM.evaluate (liftOp o) g y = some (some ((p.touching vs).energy o x)) := by
  rw [evaluate_spec (liftOp o) hg.toStores y (merged_labeling h.range hx hm us)]
  congr 1
  unfold Problem.energy
  have hresp : Respects (fixing p.numLabels.length L vs) x := by
    intro v l hv
    have hlt : v < p.numLabels.length := by
      have := (List.getElem?_eq_some_iff.mp hv).1
      simpa [fixing] using this
    have hf := fx_fixing (L := L) (vs := vs) hlt
    unfold fx at hf
    rw [hv] at hf
    simp only [Option.getD_some] at hf
    split at hf
    · cases hf
    · rename_i hns
      rw [hm.others v hns]
      have : v < L.length := by rw [h.lenL]; exact hlt
      rw [Option.some.inj hf, List.getD_eq_getElem?_getD, List.getElem?_eq_getElem this]
      rfl
  have hterm : ∀ (j : Nat) (u : Term (Option V)), (∃ t, p.terms[j]? = some t ∧ Mirrors p (fixing p.numLabels.length L vs) (rank vs) t u) →
      u.value y = some (((p.terms[j]?).map (fun t => t.value x)).getD o.neutral) := by
    rintro j u ⟨t, ht, hmir⟩
    have hval := hmir.2 y x hx hresp (by
      intro v hv hf
      by_cases hvl : v < p.numLabels.length
      · rw [isFree_fixing hvl] at hf
        rw [hm.chosen _ v (get_rank (by simpa using hf))]
      · exfalso
        have hj := (List.getElem?_eq_some_iff.mp ht).1
        have hlen := h.rep.factors.length_eq
        have hmt := (List.forall₂_iff_get.mp h.rep.factors).2 j (by omega) hj
        rw [List.get_eq_getElem, List.get_eq_getElem] at hmt
        obtain ⟨_, ht'⟩ := List.getElem?_eq_some_iff.mp ht
        rw [ht'] at hmt
        have := hmt.range v hv
        rw [h.rep.labels] at this
        exact hvl this)
    rw [hval, ht]
    rfl
  have hvals : us.map (fun u => u.value y) = (done.map (fun j => ((p.terms[j]?).map (fun t => t.value x)).getD o.neutral)).map some := by
    clear hd hg
    induction hall with
    | nil => rfl
    | cons hu _ ih => simp only [List.map_cons]; rw [ih, hterm _ _ hu]
  rw [hvals]
  show ((done.map _).map some).foldl (liftOp o).op (some o.neutral) = _
  rw [liftOp_foldl, ← touched_map p vs (fun t => t.value x) o.neutral]
  congr 1
  exact total_perm ho (hd.map _)

/-! ### The calls -/

theorem holds_construct {gm : GM V} {p : Problem V} (h : Represents gm p) : Holds (construct gm) p (List.replicate p.numLabels.length 0) [] := by
  have hn : gm.numberOfVariables = p.numLabels.length := by unfold GM.numberOfVariables; rw [h.labels]
  have hf : gm.numberOfFactors = p.terms.length := by unfold GM.numberOfFactors; exact h.factors.length_eq
  refine ⟨h, by simp [construct, hn], by simp, rfl, by simp, ?_, by simp [construct, hn], by simp [construct, hn], by simp [construct, hn], by simp [construct, hn],
    by simp [construct, hf], by simp, List.Pairwise.nil⟩
  intro v hv
  simp [construct, hn, hv]

theorem holds_setLabel {s : Opt V} {p : Problem V} {L vs : List Nat} (h : Holds s p L vs) {v l : Nat} (hv : v < p.numLabels.length) :
    ∃ s', s.setLabel v l = .ok () s' ∧ Holds s' p (L.set v l) vs := by
  unfold Opt.setLabel
  rw [h.labels, setAt_of_lt l (by rw [h.lenL]; exact hv)]
  exact ⟨_, rfl, { h with labels := rfl, lenL := by rw [List.length_set]; exact h.lenL }⟩

/-- While variables are selected: `done` are selected already. -/
structure Selecting (s : Opt V) (p : Problem V) (L : List Nat) (total : Nat) (done : List Nat) : Prop where
  rep : Represents s.gm p
  labels : s.labels = L
  lenL : L.length = p.numLabels.length
  count : s.nLocalVar = total
  entry : ∀ i v : Nat, done[i]? = some v → s.localVariables[i]? = some v ∧ s.globalToLocal[v]? = some i ∧ s.space[i]? = p.numLabels[v]?
  inSub : ∀ v, v < p.numLabels.length → s.inSubmodel[v]? = some (decide (v ∈ done))
  lenLocal : s.localVariables.length = p.numLabels.length
  lenGlobal : s.globalToLocal.length = p.numLabels.length
  lenSpace : s.space.length = p.numLabels.length
  lenIn : s.inSubmodel.length = p.numLabels.length
  handled : s.handled = List.replicate p.terms.length false

theorem length_le_of_sorted {vs : List Nat} {n : Nat} (hs : vs.Pairwise (· < ·)) (hr : ∀ v ∈ vs, v < n) : vs.length ≤ n := by
  have hnd : vs.Nodup := hs.imp (fun h => Nat.ne_of_lt h)
  have := (hnd.subperm (l₂ := List.range n) (fun v hv => List.mem_range.mpr (hr v hv))).length_le
  simpa using this

theorem selectLoop_spec {p : Problem V} {L : List Nat} {total : Nat} : ∀ (rest done : List Nat) (s : Opt V), (done ++ rest).Pairwise (· < ·) →
    (∀ v ∈ done ++ rest, v < p.numLabels.length) → Selecting s p L total done →
    ∃ s', selectLoop rest done.length s = .ok () s' ∧ Selecting s' p L total (done ++ rest)
  | [], done, s, hs, hr, h => ⟨s, rfl, by rw [List.append_nil]; exact h⟩
  | g :: rest, done, s, hs, hr, h => by
    have hg : g < p.numLabels.length := hr g (by simp)
    have hlen := length_le_of_sorted hs hr
    have hdl : done.length < p.numLabels.length := by simp at hlen; omega
    have hgd : g ∉ done := by
      intro hm
      have := (List.pairwise_append.mp hs).2.2 g hm g (by simp)
      omega
    have hcount : g < s.gm.numberOfVariables := by unfold GM.numberOfVariables; rw [h.rep.labels]; exact hg
    unfold selectLoop
    rw [if_pos hcount, setAt_of_lt g (by rw [h.lenLocal]; exact hdl), h.rep.labels, List.getElem?_eq_getElem hg]
    simp only
    rw [setAt_of_lt _ (by rw [h.lenSpace]; exact hdl), setAt_of_lt done.length (by rw [h.lenGlobal]; exact hg), h.inSub g hg]
    simp only [hgd, decide_false]
    have := selectLoop_spec (L := L) (total := total) rest (done ++ [g])
      { s with localVariables := s.localVariables.set done.length g, space := s.space.set done.length p.numLabels[g], globalToLocal := s.globalToLocal.set g done.length,
               inSubmodel := s.inSubmodel.set g true } (by simpa using hs) (by simpa using hr)
      { rep := h.rep, labels := h.labels, lenL := h.lenL, count := h.count, handled := h.handled,
        lenLocal := by simp [h.lenLocal], lenGlobal := by simp [h.lenGlobal], lenSpace := by simp [h.lenSpace], lenIn := by simp [h.lenIn]
        entry := by
          intro i v hv
          simp only
          rw [List.getElem?_append] at hv
          by_cases hi : i < done.length
          · rw [if_pos hi] at hv
            obtain ⟨e1, e2, e3⟩ := h.entry i v hv
            have hvd : v ∈ done := List.mem_of_getElem? hv
            rw [List.getElem?_set, if_neg (by omega), List.getElem?_set, if_neg (by intro h'; subst h'; exact hgd hvd), List.getElem?_set, if_neg (by omega)]
            exact ⟨e1, e2, e3⟩
          · rw [if_neg hi] at hv
            have hi0 : i = done.length := by
              have := (List.getElem?_eq_some_iff.mp hv).1
              simp at this
              omega
            subst hi0
            rw [Nat.sub_self] at hv
            simp only [List.getElem?_cons_zero, Option.some.injEq] at hv
            subst hv
            rw [List.getElem?_set, if_pos rfl, if_pos (by rw [h.lenLocal]; exact hdl), List.getElem?_set, if_pos rfl, if_pos (by rw [h.lenGlobal]; exact hg),
              List.getElem?_set, if_pos rfl, if_pos (by rw [h.lenSpace]; exact hdl), List.getElem?_eq_getElem hg]
            exact ⟨rfl, rfl, rfl⟩
        inSub := by
          intro v hv
          simp only
          rw [List.getElem?_set]
          by_cases hvg : g = v
          · subst hvg
            rw [if_pos rfl, if_pos (by rw [h.lenIn]; exact hg)]
            simp
          · rw [if_neg hvg, h.inSub v hv]
            congr 1
            simp only [List.mem_append, List.mem_singleton, decide_eq_decide]
            constructor
            · exact Or.inl
            · rintro (h | h)
              · exact h
              · exact absurd h.symm hvg }
    obtain ⟨s', e1, e2⟩ := this
    rw [List.length_append, List.length_singleton] at e1
    refine ⟨s', e1, ?_⟩
    rw [List.append_assoc] at e2
    exact e2

theorem holds_select {s : Opt V} {p : Problem V} {L vs : List Nat} (h : Holds s p L []) (hs : vs.Pairwise (· < ·)) (hr : ∀ v ∈ vs, v < p.numLabels.length) :
    ∃ s', s.setVariableIndices vs = .ok () s' ∧ Holds s' p L vs := by
  unfold Opt.setVariableIndices
  rw [if_pos (by rw [h.count]; rfl)]
  obtain ⟨s', e1, e2⟩ := selectLoop_spec (L := L) (total := vs.length) vs [] { s with nLocalVar := vs.length } hs hr
    { rep := h.rep, labels := h.labels, lenL := h.lenL, count := rfl, entry := h.entry, inSub := h.inSub, lenLocal := h.lenLocal, lenGlobal := h.lenGlobal,
      lenSpace := h.lenSpace, lenIn := h.lenIn, handled := h.handled }
  refine ⟨s', e1, ?_⟩
  rw [List.nil_append] at e2
  exact { rep := e2.rep, labels := e2.labels, lenL := e2.lenL, count := e2.count, entry := e2.entry, inSub := e2.inSub, lenLocal := e2.lenLocal, lenGlobal := e2.lenGlobal,
          lenSpace := e2.lenSpace, lenIn := e2.lenIn, handled := e2.handled, range := hr, sorted := hs }

theorem unselectLoop_spec {p : Problem V} {L vs : List Nat} : ∀ (k i : Nat) (s : Opt V), i + k = vs.length → Represents s.gm p → s.labels = L → L.length = p.numLabels.length →
    (∀ (i : Nat) (v : Nat), vs[i]? = some v → s.localVariables[i]? = some v) → (∀ v, v < p.numLabels.length → s.inSubmodel[v]? = some (decide (v ∈ vs.drop i))) →
    s.localVariables.length = p.numLabels.length → s.globalToLocal.length = p.numLabels.length → s.space.length = p.numLabels.length → s.inSubmodel.length = p.numLabels.length →
    s.handled = List.replicate p.terms.length false → vs.Nodup → (∀ v ∈ vs, v < p.numLabels.length) →
    ∃ s', unselectLoop (List.range' i k) s = .ok () s' ∧ Holds s' p L [] := by
  intro k
  induction k with
  | zero =>
    intro i s hik h1 h2 h3 h4 h5 h6 h7 h8 h9 h10 h11 h12
    refine ⟨_, rfl, { rep := h1, labels := h2, lenL := h3, count := rfl, entry := by simp, inSub := ?_, lenLocal := h6, lenGlobal := h7, lenSpace := h8, lenIn := h9, handled := h10, range := by simp, sorted := List.Pairwise.nil }⟩
    rw [List.drop_eq_nil_of_le (by omega)] at h5
    exact h5
  | succ k ih =>
    intro i s hik h1 h2 h3 h4 h5 h6 h7 h8 h9 h10 h11 h12
    have hi : i < vs.length := by omega
    have hd : vs.drop i = vs[i] :: vs.drop (i + 1) := List.drop_eq_getElem_cons hi
    have hv := h12 _ (List.getElem_mem hi)
    rw [List.range'_succ]
    unfold unselectLoop
    rw [h4 i _ (List.getElem?_eq_getElem hi)]
    simp only
    rw [h5 _ hv, hd]
    simp only [List.mem_cons, true_or, decide_true]
    refine ih (i + 1) { s with inSubmodel := s.inSubmodel.set vs[i] false } (by omega) h1 h2 h3 h4 ?_ h6 h7 h8 (by simp [h9]) h10 h11 h12
    intro v hv'
    simp only
    have hnot : vs[i] ∉ vs.drop (i + 1) := by
      have hnd : (vs.drop i).Nodup := h11.sublist (List.drop_sublist _ _)
      rw [hd, List.nodup_cons] at hnd
      exact hnd.1
    rw [List.getElem?_set]
    by_cases he : vs[i] = v
    · rw [if_pos he, if_pos (by rw [h9]; exact hv)]
      rw [← he]
      simp [hnot]
    · rw [if_neg he, h5 v hv', hd]
      congr 1
      simp only [List.mem_cons, decide_eq_decide]
      constructor
      · rintro (h | h)
        · exact absurd h.symm he
        · exact h
      · exact Or.inr

theorem holds_unselect {s : Opt V} {p : Problem V} {L vs : List Nat} (h : Holds s p L vs) (hne : vs ≠ []) :
    ∃ s', s.unsetVariableIndices = .ok () s' ∧ Holds s' p L [] := by
  unfold Opt.unsetVariableIndices
  rw [if_pos (by rw [h.count]; exact List.length_pos_iff.mpr hne), h.count, List.range_eq_range']
  exact unselectLoop_spec vs.length 0 s (by omega) h.rep h.labels h.lenL (fun i v hv => (h.entry i v hv).1) (by rw [List.drop_zero]; exact h.inSub) h.lenLocal h.lenGlobal
    h.lenSpace h.lenIn h.handled (h.sorted.imp (fun h => Nat.ne_of_lt h)) h.range

theorem startingPoint_spec {s : Opt V} {p : Problem V} {L vs : List Nat} (h : Holds s p L vs) : startingPoint s = some (restrict L vs) := by
  unfold startingPoint
  rw [h.count, mapM_eq_some_map (h := fun i => L.getD (vs.getD i 0) 0)]
  · congr 1
    apply List.ext_getElem?
    intro i
    by_cases hi : i < vs.length
    · rw [List.getElem?_map, List.getElem?_range hi]
      simp [restrict, List.getD_eq_getElem?_getD, List.getElem?_eq_getElem hi]
    · rw [List.getElem?_eq_none (by simpa using hi), List.getElem?_eq_none (by simp [restrict]; omega)]
  · intro i hi
    have hi' := List.mem_range.mp hi
    have hv := List.getElem?_eq_getElem hi'
    have hlt : vs[i] < L.length := by rw [h.lenL]; exact h.range _ (List.getElem_mem hi')
    rw [(h.entry i _ hv).1, Option.bind_some, h.labels, List.getElem?_eq_getElem hlt, List.getD_eq_getElem?_getD (l := vs), hv, List.getD_eq_getElem?_getD]
    simp [List.getElem?_eq_getElem hlt]

theorem compareLoop_spec {s : Opt V} {p : Problem V} {L vs : List Nat} (h : Holds s p L vs) {result : List Nat} (hlen : result.length = vs.length) :
    ∀ (is : List Nat), (∀ i ∈ is, i < vs.length) → ∃ b, compareLoop s result is = some b ∧ (b = true ↔ ∃ i ∈ is, result[i]? ≠ (restrict L vs)[i]?)
  | [], _ => ⟨false, rfl, by simp⟩
  | i :: is, his => by
    obtain ⟨b, e1, e2⟩ := compareLoop_spec h hlen is (fun j hj => his j (by simp [hj]))
    have hi := his i (by simp)
    have hv := List.getElem?_eq_getElem hi
    have hlt : vs[i] < L.length := by rw [h.lenL]; exact h.range _ (List.getElem_mem hi)
    have hri : i < result.length := by omega
    have hres : (restrict L vs)[i]? = some L[vs[i]] := by simp [restrict, hv, List.getElem?_eq_getElem hlt]
    unfold compareLoop
    rw [(h.entry i _ hv).1, List.getElem?_eq_getElem hri]
    simp only
    rw [h.labels, List.getElem?_eq_getElem hlt]
    simp only
    by_cases hd : result[i] = L[vs[i]]
    · rw [if_neg (by simpa using hd)]
      refine ⟨b, e1, ?_⟩
      rw [e2]
      constructor
      · rintro ⟨j, hj, hj'⟩
        exact ⟨j, by simp [hj], hj'⟩
      · rintro ⟨j, hj, hj'⟩
        rcases List.mem_cons.mp hj with rfl | hj
        · exfalso
          apply hj'
          rw [List.getElem?_eq_getElem hri, hres, hd]
        · exact ⟨j, hj, hj'⟩
    · rw [if_pos hd]
      refine ⟨true, rfl, ?_⟩
      simp only [true_iff]
      refine ⟨i, by simp, ?_⟩
      rw [List.getElem?_eq_getElem hri, hres]
      simpa using hd

theorem inferSubmodel_spec {s : Opt V} {p : Problem V} {L vs : List Nat} (h : Holds s p L vs) (hne : vs ≠ []) (solver : GM (Option V) → Option (List Nat) → List Nat)
    (warm : Bool) {g : GM (Option V)} (hb : s.build = some (g, s)) (hsol : (solver g (if warm then some (restrict L vs) else none)).length = vs.length) :
    ∃ b, s.inferSubmodel solver warm = .ok (b, solver g (if warm then some (restrict L vs) else none)) s ∧
      (b = true ↔ solver g (if warm then some (restrict L vs) else none) ≠ restrict L vs) := by
  obtain ⟨b, e1, e2⟩ := compareLoop_spec h hsol (List.range vs.length) (by simp)
  refine ⟨b, ?_, ?_⟩
  · unfold Opt.inferSubmodel
    rw [if_neg (by rw [h.count]; exact fun hz => hne (List.length_eq_zero_iff.mp hz)), hb]
    simp only
    have hstart : (if warm = true then (startingPoint s).map some else some none) = some (if warm then some (restrict L vs) else none) := by
      cases warm
      · rfl
      · simp only [if_true]
        rw [startingPoint_spec h]
        rfl
    rw [hstart]
    simp only
    rw [h.count, e1]
  · rw [e2]
    constructor
    · rintro ⟨i, _, hi⟩ he
      exact hi (by rw [he])
    · intro hd
      by_contra hcon
      apply hd
      apply List.ext_getElem?
      intro i
      by_cases hi : i < vs.length
      · by_contra hx
        exact hcon ⟨i, List.mem_range.mpr hi, hx⟩
      · rw [List.getElem?_eq_none (by omega), List.getElem?_eq_none (by simp [restrict]; omega)]

/-- The subsolver returns one label per variable of the submodel. -/
def FullResults (solver : GM (Option V) → Option (List Nat) → List Nat) : Prop := ∀ g start, (solver g start).length = g.numberOfVariables

theorem run_spec {p : Problem V} {solver : GM (Option V) → Option (List Nat) → List Nat} (hsol : FullResults solver) : ∀ (ops : List SubOp) (s : Opt V) (st : SubState),
    ValidSub p.numLabels.length st ops → Holds s p st.labels st.selected →
    ∃ s', s.run solver ops = .ok () s' ∧ Holds s' p (ops.foldl SubOp.apply st).labels (ops.foldl SubOp.apply st).selected
  | [], s, st, _, h => ⟨s, rfl, h⟩
  | op :: ops, s, st, hv, h => by
    have step : ∃ s1, s.call solver op = .ok () s1 ∧ Holds s1 p (op.apply st).labels (op.apply st).selected := by
      cases op with
      | setLabel v l => exact holds_setLabel h hv.1
      | select vs =>
        obtain ⟨h1, h2, h3⟩ := hv.1
        rw [h1] at h
        exact holds_select h h2 h3
      | unselect => exact holds_unselect h hv.1
      | infer warm =>
        obtain ⟨g, us, done, e1, e2, _, _⟩ := build_spec h
        obtain ⟨b, e3, _⟩ := inferSubmodel_spec h hv.1 solver warm e1 (by
          rw [hsol]
          unfold GM.numberOfVariables
          rw [e2.labels]
          simp [shapeOf, restrict])
        refine ⟨s, ?_, h⟩
        unfold Opt.call
        simp only
        rw [e3]
    obtain ⟨s1, e1, e2⟩ := step
    obtain ⟨s2, e3, e4⟩ := run_spec hsol ops s1 (op.apply st) hv.2 e2
    refine ⟨s2, ?_, e4⟩
    unfold Opt.run
    rw [e1]
    exact e3

end Submodel
end OpenGM
