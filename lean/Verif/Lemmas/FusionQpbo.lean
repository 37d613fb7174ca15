import Verif.Lemmas.FusionEnergy
import Verif.Spec.Distance
/-
FusionMover: distances, the terms for QPBO, and the result of fuseQpbo.
-/
namespace OpenGM.Fusion
open Spec
variable {V : Type} {gm : GM V} {p : Problem V} {A B : List Nat} {f : FactorRec} {bop : V → V → Bool} {valA valB : V} {s : Setup V}

theorem distance_fuses {y y' x x' : List Nat} (hy : Bin (differing A B).length y) (hy' : Bin (differing A B).length y') (hx : Fuses A B y x) (hx' : Fuses A B y' x') : distance y y' ≤ distance x x' := by
  have hDnd : (differing A B).Nodup := (differing_sorted A B).imp (fun h => Nat.ne_of_lt h)
  unfold distance
  rw [List.countP_eq_length_filter, List.countP_eq_length_filter]
  set P := (List.range y.length).filter (fun v => decide (y'[v]? ≠ y[v]?)) with hP
  have hPlt : ∀ i ∈ P, i < (differing A B).length := by
    intro i hi
    have := List.mem_range.mp (List.mem_filter.mp hi).1
    rw [hy.1] at this
    exact this
  have hnd : (P.map (fun i => (differing A B).getD i 0)).Nodup := by
    refine List.Nodup.map_on ?_ (List.nodup_range.filter _)
    intro i hi j hj hij
    have h1 := hPlt i hi
    have h2 := hPlt j hj
    simp only [List.getD, List.getElem?_eq_getElem h1, List.getElem?_eq_getElem h2, Option.getD_some] at hij
    exact (List.Nodup.getElem_inj_iff hDnd).mp hij
  have hsub : P.map (fun i => (differing A B).getD i 0) ⊆ (List.range x.length).filter (fun v => decide (x'[v]? ≠ x[v]?)) := by
    intro v hv
    obtain ⟨i, hi, rfl⟩ := List.mem_map.mp hv
    have h1 := hPlt i hi
    have hg : (differing A B)[i]? = some (differing A B)[i] := List.getElem?_eq_getElem h1
    obtain ⟨hlt, hne⟩ := mem_differing.mp (List.getElem_mem h1)
    simp only [List.getD, hg, Option.getD_some]
    rw [List.mem_filter, List.mem_range, hx.length]
    refine ⟨hlt, ?_⟩
    have hd := (List.mem_filter.mp hi).2
    simp only [decide_eq_true_eq] at hd ⊢
    have l1 : i < y.length := by rw [hy.1]; exact h1
    have l2 : i < y'.length := by rw [hy'.1]; exact h1
    have b1 := hy.2 _ (List.getElem_mem l1)
    have b2 := hy'.2 _ (List.getElem_mem l2)
    rw [List.getElem?_eq_getElem l1, List.getElem?_eq_getElem l2, ne_eq, Option.some.injEq] at hd
    rcases (by omega : (y[i] = 0 ∧ y'[i] = 1) ∨ (y[i] = 1 ∧ y'[i] = 0)) with ⟨e1, e2⟩ | ⟨e1, e2⟩
    · rw [hx.zero i _ hg (by rw [List.getElem?_eq_getElem l1, e1]), hx'.one i _ hg (by rw [List.getElem?_eq_getElem l2, e2])]
      exact Ne.symm hne
    · rw [hx.one i _ hg (by rw [List.getElem?_eq_getElem l1, e1]), hx'.zero i _ hg (by rw [List.getElem?_eq_getElem l2, e2])]
      exact hne
  have := (hnd.subperm hsub).length_le
  simpa using this

/-! ### QPBO -/

/-- The energy of the terms for QPBO. -/
def quad (o : Operation V) (m : QpboTerms V) (y : List Nat) : V := quadratic o m.unary m.pairwise y

theorem bin_get {n i : Nat} {y : List Nat} (hy : Bin n y) (hi : i < n) : y[i]? = some 0 ∧ y.getD i 0 = 0 ∨ y[i]? = some 1 ∧ y.getD i 0 = 1 := by
  have hlt : i < y.length := by rw [hy.1]; exact hi
  have hb := hy.2 _ (List.getElem_mem hlt)
  have hg : y[i]? = some y[i] := List.getElem?_eq_getElem hlt
  simp only [List.getD, hg, Option.getD_some, Option.some.injEq]
  omega

theorem addAll_qpbo {o : Operation V} (ho : o.IsCommMonoid) {n : Nat} : ∀ (es : List (Nat × Fn V × List Nat)) (m : QpboTerms V), (∀ e ∈ es, EmitOk n e ∧ e.2.2 ≠ [] ∧ e.2.2.length ≤ 2) →
    ∃ m', addAll qpbo m es = some m' ∧ m'.nodes = m.nodes ∧ (∀ t ∈ m'.unary, t ∈ m.unary ∨ t.1 < n) ∧ (∀ t ∈ m'.pairwise, t ∈ m.pairwise ∨ (t.1 < t.2.1 ∧ t.2.1 < n)) ∧
      ∀ y, Bin n y → quad o m' y = o.op (quad o m y) (total o (es.map (fun e => e.2.1.table (restrict y e.2.2))))
  | [], m, _ => ⟨m, rfl, rfl, fun t h => Or.inl h, fun t h => Or.inl h, by intro y _; rw [ho.comm]; simp [total, ho.neutral_left]⟩
  | e :: es, m, he => by
    obtain ⟨⟨k1, k2, k3, k4⟩, k5, k6⟩ := he e (by simp)
    have key : ∃ m1, qpbo.addFactor m e.1 e.2.1 e.2.2 = some m1 ∧ m1.nodes = m.nodes ∧ (∀ t ∈ m1.unary, t ∈ m.unary ∨ t.1 < n) ∧ (∀ t ∈ m1.pairwise, t ∈ m.pairwise ∨ (t.1 < t.2.1 ∧ t.2.1 < n)) ∧
        ∀ y, Bin n y → quad o m1 y = o.op (quad o m y) (e.2.1.table (restrict y e.2.2)) := by
      obtain ⟨ty, fn, lvs⟩ := e
      simp only at *
      match lvs, k5, k6 with
      | [i], _, _ =>
        have hi : i < n := k3 i (by simp)
        have hs : fn.shape = [2] := k4
        refine ⟨{ m with unary := m.unary ++ [(i, fn.table [0], fn.table [1])] }, ?_, rfl, ?_, fun t ht => Or.inl ht, ?_⟩
        · simp [qpbo, hs, callFn, inShape]
        · intro t ht
          rcases List.mem_append.mp ht with h | h
          · exact Or.inl h
          · right
            rw [List.mem_singleton.mp h]
            exact hi
        · intro y hy
          simp only [quad, quadratic, ← total.eq_1, List.map_append, List.map_cons, List.map_nil, total_append ho, total_cons ho]
          have hv : (if y[i]? = some 0 then fn.table [0] else fn.table [1]) = fn.table (restrict y [i]) := by
            rcases bin_get hy hi with ⟨h1, h2⟩ | ⟨h1, h2⟩ <;> simp only [restrict, List.map_cons, List.map_nil] <;> rw [h1, h2] <;> simp
          rw [hv]
          have hn : total o ([] : List V) = o.neutral := rfl
          rw [hn, ho.comm _ o.neutral, ho.neutral_left, ho.assoc, ho.assoc, ho.comm (fn.table _)]
      | [i, j], _, _ =>
        have hi : i < n := k3 i (by simp)
        have hj : j < n := k3 j (by simp)
        have hij : i < j := by simpa using k2
        have hs : fn.shape = [2, 2] := k4
        refine ⟨{ m with pairwise := m.pairwise ++ [(i, j, fn.table [0, 0], fn.table [0, 1], fn.table [1, 0], fn.table [1, 1])] }, ?_, rfl, fun t ht => Or.inl ht, ?_, ?_⟩
        · simp [qpbo, hs, callFn, inShape]
        · intro t ht
          rcases List.mem_append.mp ht with h | h
          · exact Or.inl h
          · right
            rw [List.mem_singleton.mp h]
            exact ⟨hij, hj⟩
        · intro y hy
          simp only [quad, quadratic, ← total.eq_1, List.map_append, List.map_cons, List.map_nil, total_append ho, total_cons ho]
          have hv : (if y[i]? = some 0 then (if y[j]? = some 0 then fn.table [0, 0] else fn.table [0, 1]) else (if y[j]? = some 0 then fn.table [1, 0] else fn.table [1, 1])) = fn.table (restrict y [i, j]) := by
            rcases bin_get hy hi with ⟨h1, h2⟩ | ⟨h1, h2⟩ <;> rcases bin_get hy hj with ⟨h3, h4⟩ | ⟨h3, h4⟩ <;> simp only [restrict, List.map_cons, List.map_nil] <;> rw [h1, h2, h3, h4] <;> simp
          rw [hv]
          have hn : total o ([] : List V) = o.neutral := rfl
          rw [hn, ho.comm _ o.neutral, ho.neutral_left, ho.assoc]
    obtain ⟨m1, a1, a2, a3, a4, a5⟩ := key
    obtain ⟨m', b1, b2, b3, b4, b5⟩ := addAll_qpbo ho es m1 (fun e' he' => he e' (by simp [he']))
    refine ⟨m', ?_, by rw [b2, a2], ?_, ?_, ?_⟩
    · rw [addAll_cons, a1]
      exact b1
    · intro t ht
      rcases b3 t ht with h | h
      · exact a3 t h
      · exact Or.inr h
    · intro t ht
      rcases b4 t ht with h | h
      · exact a4 t h
      · exact Or.inr h
    · intro y hy
      rw [b5 y hy, a5 y hy, List.map_cons, total_cons ho, ho.assoc]

theorem qpbo_spec {o : Operation V} (ho : o.IsCommMonoid) (hp : Pairing gm p A B) (h : Prepared bop gm A B valA valB s) (hne : differing A B ≠ []) (h2 : ∀ t ∈ p.terms, t.vars.length ≤ 2) :
    ∃ m r, fillSubModel qpbo s = some m ∧ m.nodes = (differing A B).length ∧ (∀ t ∈ m.unary, t.1 < m.nodes) ∧ (∀ t ∈ m.pairwise, t.1 < t.2.1 ∧ t.2.1 < m.nodes) ∧
      ∀ y x, Bin (differing A B).length y → Fuses A B y x → p.energy o x = o.op r (quad o m y) := by
  obtain ⟨es, fs, h1, hnd, h3, h4⟩ := fillSubModel_spec hp h hne
  obtain ⟨m, e1, e2, e3, e4, e5⟩ := addAll_qpbo ho (n := (differing A B).length) es ⟨(differing A B).length, [], []⟩ (by
    intro e he
    obtain ⟨i, hi, rfl⟩ := List.getElem_of_mem he
    have hlen := h1.length_eq
    have hem := h1.get (i := i) (by omega) hi
    refine ⟨hem.ok hp, hem.nonempty, ?_⟩
    obtain ⟨t, ht, hl, _⟩ := hem.term
    simp only [List.get_eq_getElem] at hl
    rw [hl, List.length_map]
    exact (List.length_filter_le _ _).trans (h2 t (List.mem_of_getElem? ht)))
  obtain ⟨r, hr⟩ : ∃ r, ∀ y x, Bin (differing A B).length y → Fuses A B y x → p.energy o x = o.op r (total o (es.map (fun e => e.2.1.table (restrict y e.2.2)))) := by
    refine ⟨total o (((List.range p.terms.length).filter (fun f => decide (f ∉ fs))).map (termVal o p A)), ?_⟩
    intro y x hy hx
    rw [energy_split ho p x fs hnd (fun f hf => by obtain ⟨v, _, hm⟩ := (h3 f).mp hf; exact mentions_lt hm)]
    congr 1
    · congr 1
      apply List.map_congr_left
      intro f hf
      apply termVal_congr
      intro v hm
      apply hx.same
      have hnf : f ∉ fs := by simpa using (List.mem_filter.mp hf).2
      by_contra hd
      apply hnf
      rw [h3]
      refine ⟨v, mem_differing.mpr ⟨?_, hd⟩, hm⟩
      by_contra hlt
      apply hd
      rw [List.getElem?_eq_none (by omega), List.getElem?_eq_none (by rw [← hp.lenAB]; omega)]
    · rw [total_emit h1 hy hx, List.map_map]
      rfl
  refine ⟨m, r, ?_, e2, ?_, ?_, ?_⟩
  · rw [h4]
    exact e1
  · intro t ht
    rw [e2]
    exact (e3 t ht).resolve_left (by simp)
  · intro t ht
    rw [e2]
    exact (e4 t ht).resolve_left (by simp)
  · intro y x hy hx
    rw [hr y x hy hx, e5 y hy]
    have : quad o (⟨(differing A B).length, [], []⟩ : QpboTerms V) y = o.neutral := by simp [quad, quadratic, ho.neutral_left]
    rw [this, ho.neutral_left]

/-- The labels of the fusion model for the answer `label` of QPBO. -/
def qpboLabels (label : Nat → Option Nat) (best n : Nat) : List Nat := (List.range n).map (fun i => match label i with | some 0 => 0 | some 1 => 1 | _ => best)

theorem qpboLabels_get {label : Nat → Option Nat} {best n i : Nat} (hi : i < n) : (qpboLabels label best n)[i]? = some (match label i with | some 0 => 0 | some 1 => 1 | _ => best) := by
  simp [qpboLabels, hi]

theorem writeBackQpbo_spec (hp : Pairing gm p A B) (h : Prepared bop gm A B valA valB s) {label : Nat → Option Nat} :
    ∀ (k i : Nat) (res : List Nat), i + k = (differing A B).length → Written A B (qpboLabels label s.bestLabel (differing A B).length) i res →
    ∃ x, writeBackQpbo s label i k res = some x ∧ Fuses A B (qpboLabels label s.bestLabel (differing A B).length) x
  | 0, i, res, hk, hw => ⟨res, rfl, by obtain rfl : i = (differing A B).length := (by omega); exact hw.fuses⟩
  | k + 1, i, res, hk, hw => by
    have hlt : i < (differing A B).length := by omega
    have hv : (differing A B)[i]? = some (differing A B)[i] := List.getElem?_eq_getElem hlt
    have hl := qpboLabels_get (label := label) (best := s.bestLabel) hlt
    generalize hlab : (match label i with | some 0 => 0 | some 1 => 1 | _ => s.bestLabel) = l at hl
    have h2 : l < 2 := by
      rw [← hlab]
      have := h.bestLabel
      split
      · omega
      · omega
      · rw [this]; split <;> omega
    obtain ⟨a, ha⟩ := label_some hp hv l
    have hsel : chosenLabel s (differing A B)[i] (label i) = some a := by
      have hb := h.bestLabel
      rw [← ha, ← hlab]
      generalize label i = lab
      match lab with
      | some 0 => simp [chosenLabel, h.argA]
      | some 1 => simp [chosenLabel, h.argB]
      | none => simp only [chosenLabel, h.argBest, hb]; split <;> simp
      | some (n + 2) => simp only [chosenLabel, h.argBest, hb]; split <;> simp
    unfold writeBackQpbo
    rw [(h.maps _ _ hv).1]
    simp only
    rw [hsel]
    simp only
    rw [setAt_of_lt _ (by rw [hw.length]; exact (mem_differing.mp (List.mem_of_getElem? hv)).1)]
    exact writeBackQpbo_spec hp h k (i + 1) _ (by omega) (hw.next hv hl h2 ha)

theorem qpboLabels_bin (h : Prepared bop gm A B valA valB s) (label : Nat → Option Nat) (n : Nat) : Bin n (qpboLabels label s.bestLabel n) := by
  refine ⟨by simp [qpboLabels], ?_⟩
  intro l hl
  obtain ⟨i, _, rfl⟩ := List.mem_map.mp hl
  have := h.bestLabel
  split
  · omega
  · omega
  · rw [this]; split <;> omega

theorem fuseQpbo_spec {o : Operation V} (hp : Pairing gm p A B) (h : Prepared bop gm A B valA valB s) {m : QpboTerms V} (hs : fillSubModel qpbo s = some m)
    (solver : QpboTerms V → Nat → Nat → Option Nat) :
    ∃ x, Fuses A B (qpboLabels (solver m s.bestLabel) s.bestLabel (differing A B).length) x ∧ p.Labeling x ∧ fuseQpbo o bop solver s =
      some (if bop s.valueBest (p.energy o x) then (s.valueBest, { s with argResult := s.argBest }) else (p.energy o x, { s with argResult := x })) := by
  obtain ⟨x, e1, e2⟩ := writeBackQpbo_spec hp h (label := solver m s.bestLabel) (differing A B).length 0 A (by omega) (Written.start _)
  have hl := mixture_labeling hp (fuses_mixture (qpboLabels_bin h _ _) e2)
  refine ⟨x, e2, hl, ?_⟩
  unfold fuseQpbo
  rw [hs]
  simp only
  have e1' : writeBackQpbo s (solver m s.bestLabel) 0 s.nLocalVar s.argResult = some x := by rw [h.argResult, h.count]; exact e1
  rw [e1']
  simp only
  exact takeBest_spec hp h hl

end OpenGM.Fusion
