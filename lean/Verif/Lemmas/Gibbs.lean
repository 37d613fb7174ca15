import Verif.Model.Gibbs
import Verif.Lemmas.MoveOptimal
import Mathlib.Order.Defs.LinearOrder
/-
One step and the loop of Gibbs.
-/
namespace OpenGM.Gibbs
open Spec Movemaker
variable {V : Type}

/-- The state of a Gibbs object: the Markov state is `x`, the best state is `y`. -/
structure Inv (o : InvOperation V) (gm : GM V) (p : Problem V) (g : Obj V) (x y : List Nat) : Prop where
  model : g.gm = gm
  tracks : Tracks o g.movemaker p x
  best : g.currentBestState = y
  labeling : p.Labeling y

section
variable {o : InvOperation V} {multiplier : Bool} {bop : V → V → Bool} {gm : GM V} {p : Problem V} [DecidableEq V]

theorem uniform_spec (r : Nat) {n : Nat} (h : 0 < n) : uniform r n = some (r % n) := by
  unfold uniform
  rw [if_neg (by omega)]

/-- The variable that is selected. -/
def selected (p : Problem V) (proposal : Proposal) (r : Nat) : Nat :=
  match proposal with
  | .random => r % p.numLabels.length
  | .cyclic => if p.numLabels.length = 1 then 0 else 1

omit [DecidableEq V] in
theorem selectVariable_spec (hs : Stores gm p) (hne : p.numLabels ≠ []) (proposal : Proposal) (r : Nat) :
    selectVariable gm proposal r = some (selected p proposal r) ∧ selected p proposal r < p.numLabels.length := by
  have hl : gm.numberOfVariables = p.numLabels.length := by rw [GM.numberOfVariables, hs.labels]
  have hpos : 0 < p.numLabels.length := List.length_pos_of_ne_nil hne
  unfold selectVariable selected
  cases proposal with
  | random =>
    simp only
    rw [hl, uniform_spec r hpos]
    exact ⟨rfl, Nat.mod_lt _ hpos⟩
  | cyclic =>
    simp only
    rw [hl, if_neg (by omega)]
    by_cases h1 : p.numLabels.length = 1
    · rw [if_neg (by omega), if_pos h1]
      exact ⟨rfl, hpos⟩
    · rw [if_pos (by omega), if_neg h1]
      exact ⟨rfl, by omega⟩

/-- What one step does: `x` is the Markov state before, `x'` after, `z` is the state that is proposed. -/
structure StepSpec (o : InvOperation V) (bop : V → V → Bool) (p : Problem V) (d : Draw V) (g g' : Obj V) (changed : Bool) (x x' y y' z : List Nat) : Prop where
  proposed : ∃ v l, v = selected p g.parameter.variableProposal d.variable_ ∧ v < p.numLabels.length ∧ l = d.label % p.numLabels.getD v 0 ∧ z = fill x [v] [l] ∧ (changed = true ↔ x[v]? ≠ some l)
  labeling : p.Labeling z
  next : x' = if bop (p.energy o.toOperation z) (p.energy o.toOperation x) || d.accept (p.energy o.toOperation z) (p.energy o.toOperation x) then z else x
  best : (y' = y ∧ g'.currentBestValue = g.currentBestValue ∧ ((bop (p.energy o.toOperation z) (p.energy o.toOperation x) = true → bop (p.energy o.toOperation z) g.currentBestValue = false ∨ p.energy o.toOperation z = g.currentBestValue) )) ∨
    (changed = true ∧ y' = z ∧ x' = z ∧ g'.currentBestValue = p.energy o.toOperation z ∧ bop (p.energy o.toOperation z) g.currentBestValue = true)

theorem fill_same {x : List Nat} {v l : Nat} (h : x[v]? = some l) : fill x [v] [l] = x := by
  simp only [fill]
  apply List.ext_getElem?
  intro w
  by_cases hw : v = w
  · subst hw
    rw [List.getElem?_set_self (List.getElem?_eq_some_iff.mp h).1, h]
  · rw [List.getElem?_set_ne hw]

theorem step_spec (ho : multiplier = true ∨ o.Laws) (hirr : ∀ a, bop a a = false) (hs : Stores gm p) (hne : p.numLabels ≠ []) (hpos : ∀ n ∈ p.numLabels, 0 < n) (d : Draw V) {g : Obj V} {x y : List Nat} (h : Inv o gm p g x y) :
    ∃ g' changed x' y' z, step o multiplier bop d g = some (g', changed) ∧ Inv o gm p g' x' y' ∧ g'.parameter = g.parameter ∧ StepSpec o bop p d g g' changed x x' y y' z := by
  obtain ⟨e1, e2⟩ := selectVariable_spec hs hne g.parameter.variableProposal d.variable_
  generalize hv : selected p g.parameter.variableProposal d.variable_ = v at e1 e2
  have hx := h.tracks.labeling
  have hvx : v < x.length := by rw [hx.1]; exact e2
  have hn : p.numLabels[v]? = some p.numLabels[v] := List.getElem?_eq_getElem e2
  have hnpos := hpos _ (List.getElem_mem e2)
  have hgetD : p.numLabels.getD v 0 = p.numLabels[v] := by rw [List.getD_eq_getElem?_getD, hn]; rfl
  generalize hl : d.label % p.numLabels[v] = l
  have hin : InRange p.numLabels [v] [l] := by
    refine ⟨rfl, ?_⟩
    intro i w l' n h1 h2 h3
    cases i with
    | zero =>
      simp only [List.getElem?_cons_zero, Option.some.injEq] at h1 h2
      subst h1 h2
      rw [hn] at h3; cases h3
      rw [← hl]
      exact Nat.mod_lt _ hnpos
    | succ i => simp at h1
  have hr : ∀ w ∈ [v], w < p.numLabels.length := by intro w hw; simp only [List.mem_singleton] at hw; rw [hw]; exact e2
  have hz : p.Labeling (fill x [v] [l]) := fill_labeling hx [v] [l] (by simp) (fun w hw => by rw [hx.1]; exact hr w hw) hin
  unfold step
  rw [h.model, e1]
  simp only
  rw [hs.labels, hn]
  simp only
  rw [uniform_spec _ hnpos, h.tracks.state, List.getElem?_eq_getElem hvx, hl]
  simp only
  by_cases hlx : l ≠ x[v]
  · have hch : (true = true ↔ x[v]? ≠ some l) := by
      simp only [true_iff]
      rw [List.getElem?_eq_getElem hvx]
      intro h'; exact hlx (Option.some.inj h').symm
    obtain ⟨m', g1, g2, g3⟩ := move_spec multiplier ho h.tracks [v] [l] (by simp) hr hin
    rw [if_pos hlx, valueAfterMove_spec multiplier ho h.tracks [v] [l] (by simp) hr hin]
    simp only
    have hval : g.movemaker.value = p.energy o.toOperation x := h.tracks.energy
    rw [hval, g1]
    simp only
    by_cases hb : bop (p.energy o.toOperation (fill x [v] [l])) (p.energy o.toOperation x) = true
    · rw [if_pos hb]
      by_cases hbest : (bop (p.energy o.toOperation (fill x [v] [l])) g.currentBestValue && decide (p.energy o.toOperation (fill x [v] [l]) ≠ g.currentBestValue)) = true
      · rw [if_pos hbest, g2.state, h.best, if_pos (by rw [hz.1, h.labeling.1])]
        have htake : (fill x [v] [l]).take y.length = fill x [v] [l] := by rw [h.labeling.1, ← hz.1, List.take_length]
        rw [Bool.and_eq_true] at hbest
        refine ⟨_, true, fill x [v] [l], fill x [v] [l], fill x [v] [l], rfl, ⟨rfl, g2, htake, hz⟩, rfl, ⟨v, l, hv.symm, e2, by rw [hgetD, hl], rfl, hch⟩, hz, by rw [hb]; simp, Or.inr ⟨rfl, rfl, rfl, rfl, hbest.1⟩⟩
      · rw [if_neg hbest]
        refine ⟨_, true, fill x [v] [l], y, fill x [v] [l], rfl, ⟨rfl, g2, h.best, h.labeling⟩, rfl, ⟨v, l, hv.symm, e2, by rw [hgetD, hl], rfl, hch⟩, hz, by rw [hb]; simp, Or.inl ⟨rfl, rfl, ?_⟩⟩
        intro _
        simp only [Bool.and_eq_true, decide_eq_true_eq, not_and, not_not] at hbest
        cases hbb : bop (p.energy o.toOperation (fill x [v] [l])) g.currentBestValue with
        | true => exact Or.inr (hbest hbb)
        | false => exact Or.inl rfl
    · rw [if_neg hb]
      have hbf : bop (p.energy o.toOperation (fill x [v] [l])) (p.energy o.toOperation x) = false := by simpa using hb
      by_cases ha : d.accept (p.energy o.toOperation (fill x [v] [l])) (p.energy o.toOperation x) = true
      · rw [if_pos ha]
        exact ⟨_, true, fill x [v] [l], y, fill x [v] [l], rfl, ⟨rfl, g2, h.best, h.labeling⟩, rfl, ⟨v, l, hv.symm, e2, by rw [hgetD, hl], rfl, hch⟩, hz, by rw [ha]; simp, Or.inl ⟨rfl, rfl, fun h' => absurd h' hb⟩⟩
      · rw [if_neg ha]
        exact ⟨_, true, x, y, fill x [v] [l], rfl, ⟨rfl, h.tracks, h.best, h.labeling⟩, rfl, ⟨v, l, hv.symm, e2, by rw [hgetD, hl], rfl, hch⟩, hz, by rw [hbf]; simp [ha], Or.inl ⟨rfl, rfl, fun h' => absurd h' hb⟩⟩
  · rw [if_neg hlx]
    push Not at hlx
    have hsame : fill x [v] [l] = x := fill_same (by rw [List.getElem?_eq_getElem hvx, hlx])
    refine ⟨_, false, x, y, x, rfl, ⟨h.model, h.tracks, h.best, h.labeling⟩, rfl, ⟨v, l, hv.symm, e2, by rw [hgetD, hl], hsame.symm, ?_⟩, hx, by simp, Or.inl ⟨rfl, rfl, ?_⟩⟩
    · simp [List.getElem?_eq_getElem hvx, hlx]
    · intro h'
      rw [hirr] at h'
      cases h'

omit [DecidableEq V] in
/-- With a total order: if `b` is not better than `a` and `c` is not better than `b`, then `c` is not better than `a`. -/
theorem negTrans (ho : StrictOrder bop) (htot : ∀ a b, bop a b = false → bop b a = false → a = b) {a b c : V} (h1 : bop b a = false) (h2 : bop c b = false) : bop c a = false := by
  cases h3 : bop c a with
  | false => rfl
  | true =>
    cases h4 : bop a b with
    | true => rw [ho.trans _ _ _ h3 h4] at h2; cases h2
    | false =>
      rw [htot a b h4 h1] at h3
      rw [h3] at h2; cases h2

/-- The best value belongs to the best state, and the Markov state is not better. -/
def Known (o : InvOperation V) (bop : V → V → Bool) (p : Problem V) (g : Obj V) (x y : List Nat) : Prop :=
  g.currentBestValue = p.energy o.toOperation y ∧ bop (p.energy o.toOperation x) g.currentBestValue = false

omit [DecidableEq V] in
theorem StepSpec.known (hord : StrictOrder bop) (htot : ∀ a b, bop a b = false → bop b a = false → a = b) {d : Draw V} {g g' : Obj V} {c : Bool} {x x' y y' z : List Nat} (h : StepSpec o bop p d g g' c x x' y y' z)
    (hk : Known o bop p g x y) : Known o bop p g' x' y' ∧ bop g.currentBestValue g'.currentBestValue = false := by
  rcases h.best with ⟨rfl, h2, h3⟩ | ⟨_, rfl, rfl, h3, h4⟩
  · unfold Known
    rw [h2]
    refine ⟨⟨hk.1, ?_⟩, hord.irrefl _⟩
    rw [h.next]
    split
    · cases hb : bop (p.energy o.toOperation z) (p.energy o.toOperation x) with
      | true =>
        rcases h3 hb with h3 | h3
        · exact h3
        · rw [h3]; exact hord.irrefl _
      | false => exact negTrans hord htot hk.2 hb
    · exact hk.2
  · refine ⟨⟨h3, by rw [h3]; exact hord.irrefl _⟩, ?_⟩
    rw [h3]
    cases hb : bop g.currentBestValue (p.energy o.toOperation x') with
    | false => rfl
    | true => have := hord.trans _ _ _ h4 hb; rw [hord.irrefl] at this; cases this

theorem loop_spec (ho : multiplier = true ∨ o.Laws) (hirr : ∀ a, bop a a = false) (hs : Stores gm p) (hne : p.numLabels ≠ []) (hpos : ∀ n ∈ p.numLabels, 0 < n) (draw : Nat → Draw V) (total : Nat) :
    ∀ (fuel iteration : Nat) (g : Obj V) (x y : List Nat), 0 < fuel → total < fuel + iteration → Inv o gm p g x y →
    ∃ g' seen x' y', loop o multiplier bop draw total fuel iteration g = some (g', seen) ∧ Inv o gm p g' x' y' ∧ g'.parameter = g.parameter ∧ (∀ z ∈ seen, p.Labeling z) ∧ x' = (x :: seen).getLast (by simp) ∧
      (y' = y ∨ y' ∈ seen) ∧ (g'.currentBestValue = g.currentBestValue ∧ y' = y ∨ g'.currentBestValue = p.energy o.toOperation y') ∧ 2 * seen.length ≤ total + 1 - iteration ∧
      (g.parameter.variableProposal = .cyclic → 2 ≤ p.numLabels.length → ∀ z ∈ seen, ∀ v : Nat, v ≠ 1 → z[v]? = x[v]?) ∧
      (StrictOrder bop → (∀ a b, bop a b = false → bop b a = false → a = b) → Known o bop p g x y →
        Known o bop p g' x' y' ∧ bop g.currentBestValue g'.currentBestValue = false ∧ ∀ z ∈ seen, bop (p.energy o.toOperation z) g'.currentBestValue = false)
  | 0, iteration, g, x, y, h0, hf, h => by omega
  | fuel + 1, iteration, g, x, y, _, hf, h => by
    unfold loop
    by_cases hi : iteration < total
    · rw [if_pos hi]
      obtain ⟨g1, changed, x1, y1, z, e1, e2, e3, e4⟩ := step_spec ho hirr hs hne hpos (draw iteration) h
      rw [e1]
      simp only
      obtain ⟨g2, seen, x2, y2, f1, f2, f3, f4, f5, f6, f7, f8, f9, f10⟩ := loop_spec ho hirr hs hne hpos draw total fuel (if changed then iteration + 2 else iteration + 1) g1 x1 y1 (by omega) (by split <;> omega) e2
      rw [f1]
      obtain ⟨v, l, v1, v2, v3, v4, v5⟩ := e4.proposed
      have hx1 : p.Labeling x1 := e2.tracks.labeling
      have hsame : changed = false → x1 = x := by
        intro hc
        rw [hc] at v5
        simp only [Bool.false_eq_true, ne_eq, false_iff, not_not] at v5
        have := fill_same v5
        rw [e4.next, v4, this]
        simp
      have hy1 : y1 = y ∨ y1 = x1 := by
        rcases e4.best with ⟨h1, _⟩ | ⟨_, h2, h3, _⟩
        · exact Or.inl h1
        · exact Or.inr (by rw [h2, h3])
      have hcyc : g.parameter.variableProposal = .cyclic → 2 ≤ p.numLabels.length → ∀ w : Nat, w ≠ 1 → x1[w]? = x[w]? := by
        intro hc hn w hw
        have hv : v = 1 := by
          rw [v1, hc]
          show (if p.numLabels.length = 1 then 0 else 1) = 1
          rw [if_neg (by omega)]
        rw [e4.next]
        split
        · rw [v4]
          exact fill_other _ _ _ _ (by rw [hv]; simpa using hw)
        · rfl
      have hval : g1.currentBestValue = g.currentBestValue ∧ y1 = y ∨ g1.currentBestValue = p.energy o.toOperation y1 := by
        rcases e4.best with ⟨h1, h2, _⟩ | ⟨_, h1, _, h2, _⟩
        · exact Or.inl ⟨h2, h1⟩
        · exact Or.inr (by rw [h2, h1])
      refine ⟨g2, _, x2, y2, rfl, f2, f3.trans e3, ?_, ?_, ?_, ?_, ?_, ?_, ?_⟩
      · intro z' hz'
        split at hz'
        · rcases List.mem_cons.mp hz' with rfl | hz'
          · rw [e2.tracks.state]; exact hx1
          · exact f4 z' hz'
        · exact f4 z' hz'
      · cases changed with
        | true => simp only [if_true, e2.tracks.state, f5]; exact (List.getLast_cons (by simp)).symm
        | false => simp only [Bool.false_eq_true, if_false, f5, hsame rfl]
      · cases changed with
        | true =>
          simp only [if_true, e2.tracks.state, List.mem_cons]
          rcases f6 with rfl | f6
          · rcases hy1 with h1 | h1
            · exact Or.inl h1
            · exact Or.inr (Or.inl h1)
          · exact Or.inr (Or.inr f6)
        | false =>
          simp only [Bool.false_eq_true, if_false]
          rcases f6 with rfl | f6
          · rcases e4.best with ⟨h1, _⟩ | ⟨h1, _⟩
            · exact Or.inl h1
            · cases h1
          · exact Or.inr f6
      · rcases f7 with ⟨h1, rfl⟩ | h1
        · rcases hval with ⟨h2, h3⟩ | h2
          · exact Or.inl ⟨h1.trans h2, h3⟩
          · exact Or.inr (h1.trans h2)
        · exact Or.inr h1
      · cases changed with
        | true => simp only [if_true, List.length_cons] at f8 ⊢; omega
        | false => simp only [Bool.false_eq_true, if_false] at f8 ⊢; omega
      · intro hc hn z' hz' w hw
        have hrest : ∀ z' ∈ seen, z'[w]? = x[w]? := fun z' hz' => (f9 (by rw [e3]; exact hc) hn z' hz' w hw).trans (hcyc hc hn w hw)
        split at hz'
        · rcases List.mem_cons.mp hz' with rfl | hz'
          · rw [e2.tracks.state]; exact hcyc hc hn w hw
          · exact hrest z' hz'
        · exact hrest z' hz'
      · intro hord htot hk
        obtain ⟨k1, k2⟩ := e4.known hord htot hk
        obtain ⟨k3, k4, k5⟩ := f10 hord htot k1
        refine ⟨k3, negTrans hord htot k4 k2, ?_⟩
        intro z' hz'
        split at hz'
        · rcases List.mem_cons.mp hz' with rfl | hz'
          · rw [e2.tracks.state]; exact negTrans hord htot k4 k1.2
          · exact k5 z' hz'
        · exact k5 z' hz'
    · rw [if_neg hi]
      exact ⟨g, [], x, y, rfl, h, rfl, by simp, rfl, Or.inl rfl, Or.inl ⟨rfl, rfl⟩, by simp, by simp, fun hord _ hk => ⟨hk, hord.irrefl _, by simp⟩⟩

end
end OpenGM.Gibbs
