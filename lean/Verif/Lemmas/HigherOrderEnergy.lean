import Verif.Model.HigherOrderEnergy
import Verif.Spec.PseudoBoolean
import Mathlib.Tactic.Linarith
import Mathlib.Tactic.Ring
import Mathlib.Algebra.Order.Ring.Defs
/-
Lemmas on HigherOrderEnergy: what the records mean, and that AddTerm and the elimination of positive terms keep it.
-/
namespace OpenGM.Hoe
open Spec (monomial polynomial quadraticForm AgreeBelow)
variable {R : Type} [CommRing R] [LinearOrder R]

/-! ### Sums over lists -/

theorem sum_set {α : Type} (f : α → R) : ∀ (l : List α) (i : Nat) (a b : α), l[i]? = some b → ((l.set i a).map f).sum = (l.map f).sum + (f a - f b)
  | [], i, a, b, h => by simp at h
  | c :: l, 0, a, b, h => by
    simp only [List.getElem?_cons_zero, Option.some.injEq] at h
    subst h
    simp only [List.set_cons_zero, List.map_cons, List.sum_cons]
    ring
  | c :: l, i + 1, a, b, h => by
    simp only [List.getElem?_cons_succ] at h
    have := sum_set f l i a b h
    simp only [List.set_cons_succ, List.map_cons, List.sum_cons, this]
    ring

/-! ### The meaning of the records -/

def termVal (x : Nat → Bool) (t : HTerm R) : R := monomial x t.coeff t.vars
def termsVal (x : Nat → Bool) (ts : List (HTerm R)) : R := (ts.map (termVal x)).sum
def recVal (x : Nat → Bool) (r : VarRecord R) : R := monomial x r.coeff [r.id] + termsVal x r.terms
def hoeVal (x : Nat → Bool) (h : HOE R) : R := (h.varRecords.map (recVal x)).sum

theorem mono_add (x : Nat → Bool) (a b : R) (vs : List Nat) : monomial x (a + b) vs = monomial x a vs + monomial x b vs := by
  unfold monomial; split <;> simp
theorem mono_neg (x : Nat → Bool) (a : R) (vs : List Nat) : monomial x (-a) vs = - monomial x a vs := by
  unfold monomial; split <;> simp
theorem mono_zero (x : Nat → Bool) (vs : List Nat) : monomial x (0 : R) vs = 0 := by
  unfold monomial; split <;> rfl
theorem termsVal_append (x : Nat → Bool) (a b : List (HTerm R)) : termsVal x (a ++ b) = termsVal x a + termsVal x b := by
  simp [termsVal]
theorem termsVal_cons (x : Nat → Bool) (a : HTerm R) (b : List (HTerm R)) : termsVal x (a :: b) = termVal x a + termsVal x b := by
  simp [termsVal]

/-! ### AddTerm -/

theorem compareVars_zero : ∀ (a b : List Nat), a.length = b.length → compareVars a b = 0 → a = b
  | [], [], _, _ => rfl
  | [], _ :: _, h, _ => by simp at h
  | _ :: _, [], h, _ => by simp at h
  | a :: as, b :: bs, h, hc => by
    simp only [compareVars] at hc
    split at hc
    · split at hc <;> simp at hc
    · rename_i hab
      simp only [ne_eq, not_not] at hab
      rw [hab, compareVars_zero as bs (by simpa using h) hc]

theorem compare_zero (a b : List Nat) (h : compare a b = 0) : a = b := by
  unfold compare at h
  split at h
  · simp at h
  · split at h
    · simp at h
    · exact compareVars_zero a b (by omega) h

/-- What the terms in a list satisfy still holds after the insertion, if the new term and the merged term satisfy it. -/
theorem insertTerm_forall (P : HTerm R → Prop) (c : R) (vs : List Nat) (hnew : P ⟨c, vs⟩) (hmerge : ∀ u : HTerm R, u.vars = vs → P u → P ⟨u.coeff + c, vs⟩) :
    ∀ (ts : List (HTerm R)), (∀ t ∈ ts, P t) → ∀ t ∈ (insertTerm c vs ts).1, P t
  | [], _, t, ht => by
    simp only [insertTerm, List.mem_singleton] at ht
    rw [ht]; exact hnew
  | u :: us, h, t, ht => by
    simp only [insertTerm] at ht
    split at ht
    · rename_i hc
      have hv := compare_zero _ _ hc
      rcases List.mem_cons.1 ht with e | e
      · subst e
        have := hmerge u hv.symm (h u (by simp))
        rw [hv] at this
        exact this
      · exact h t (by simp [e])
    · split at ht
      · rcases List.mem_cons.1 ht with e | e
        · rw [e]; exact hnew
        · exact h t e
      · rcases List.mem_cons.1 ht with e | e
        · rw [e]; exact h u (by simp)
        · exact insertTerm_forall P c vs hnew hmerge us (fun t ht => h t (by simp [ht])) t e

theorem insertTerm_val (x : Nat → Bool) (c : R) (vs : List Nat) : ∀ (ts : List (HTerm R)), termsVal x (insertTerm c vs ts).1 = termsVal x ts + monomial x c vs
  | [] => by simp [insertTerm, termsVal, termVal]
  | u :: us => by
    simp only [insertTerm]
    split
    · rename_i hc
      have hv := compare_zero _ _ hc
      simp only [termsVal_cons, termVal, hv, mono_add]
      ring
    · split
      · simp only [termsVal_cons, termVal]; ring
      · simp only [termsVal_cons, insertTerm_val x c vs us]; ring

/-- The counts of a list of terms. -/
def quadCount (ts : List (HTerm R)) : Int := (ts.map (fun t => if t.vars.length = 2 then (1 : Int) else 0)).sum
def highCount (ts : List (HTerm R)) : Int := (ts.map (fun t => if t.vars.length = 2 then (0 : Int) else 1)).sum
def degCount (ts : List (HTerm R)) : Int := (ts.map (fun t => if t.vars.length = 2 then (0 : Int) else t.vars.length)).sum

theorem insertTerm_count (c : R) (vs : List Nat) (g : Nat → Int) : ∀ (ts : List (HTerm R)),
    ((insertTerm c vs ts).1.map (fun t => g t.vars.length)).sum = (ts.map (fun t => g t.vars.length)).sum + (if (insertTerm c vs ts).2 then 0 else g vs.length)
  | [] => by simp [insertTerm]
  | u :: us => by
    simp only [insertTerm]
    split
    · simp
    · split
      · simp; ring
      · have := insertTerm_count c vs g us
        simp only [List.map_cons, List.sum_cons, this]
        ring

/-- The record of the variable `i` in an object with `n` variables. -/
structure RecOK (D n i : Nat) (r : VarRecord R) : Prop where
  id : r.id = i
  terms : ∀ t ∈ r.terms, ∃ w ws, t.vars = i :: w :: ws ∧ t.vars.Pairwise (· < ·) ∧ (∀ v ∈ t.vars, v < n) ∧ t.vars.length ≤ D
  quad : r.quadraticTerms = quadCount r.terms
  high : r.higherOrderTerms = highCount r.terms
  deg : r.sumDegrees = degCount r.terms

structure OK (D : Nat) (h : HOE R) : Prop where
  size : h.varRecords.length = h.varCounter
  recs : ∀ i r, h.varRecords[i]? = some r → RecOK D h.varCounter i r

/-- The variables of a term that may be added. -/
structure ValidVars (D n : Nat) (vs : List Nat) : Prop where
  increasing : vs.Pairwise (· < ·)
  range : ∀ v ∈ vs, v < n
  degree : vs.length ≤ D

theorem OK.setRec {D : Nat} {h : HOE R} (hk : OK D h) (i : Nat) (r : VarRecord R) (hr : RecOK D h.varCounter i r) : OK D { h with varRecords := h.varRecords.set i r } := by
  refine ⟨by simpa using hk.size, ?_⟩
  intro j r' hj
  simp only [List.getElem?_set] at hj
  split at hj
  · rename_i hij
    split at hj
    · cases hj; rw [← hij]; exact hr
    · cases hj
  · exact hk.recs j r' hj

theorem OK.get {D : Nat} {h : HOE R} (hk : OK D h) {i : Nat} (hi : i < h.varCounter) : ∃ r, h.varRecords[i]? = some r := by
  have : i < h.varRecords.length := by rw [hk.size]; exact hi
  exact ⟨_, List.getElem?_eq_getElem this⟩

theorem addToRecord_spec {D n i : Nat} {r : VarRecord R} (hr : RecOK D n i r) (c : R) (w : Nat) (ws : List Nat) (hv : ValidVars D n (i :: w :: ws)) :
    RecOK D n i (addToRecord r c (i :: w :: ws)) ∧ (addToRecord r c (i :: w :: ws)).coeff = r.coeff ∧
      (addToRecord r c (i :: w :: ws)).terms = (insertTerm c (i :: w :: ws) r.terms).1 := by
  have hq := insertTerm_count c (i :: w :: ws) (fun n => if n = 2 then 1 else 0) r.terms
  have hh := insertTerm_count c (i :: w :: ws) (fun n => if n = 2 then 0 else 1) r.terms
  have hd := insertTerm_count c (i :: w :: ws) (fun n => if n = 2 then 0 else n) r.terms
  have ht := insertTerm_forall (fun t => ∃ w ws, t.vars = i :: w :: ws ∧ t.vars.Pairwise (· < ·) ∧ (∀ v ∈ t.vars, v < n) ∧ t.vars.length ≤ D) c (i :: w :: ws)
    ⟨w, ws, rfl, hv.increasing, hv.range, hv.degree⟩ (fun u _ _ => ⟨w, ws, rfl, hv.increasing, hv.range, hv.degree⟩) r.terms hr.terms
  have e1 := hr.quad; have e2 := hr.high; have e3 := hr.deg
  simp only [quadCount, highCount, degCount] at e1 e2 e3
  unfold addToRecord
  simp only []
  split
  · rename_i hf
    simp only [hf] at hq hh hd
    refine ⟨⟨hr.id, ht, ?_, ?_, ?_⟩, rfl, rfl⟩
    · simp only [quadCount]; rw [hq, e1]; simp
    · simp only [highCount]; rw [hh, e2]; simp
    · simp only [degCount]; rw [hd, e3]; simp
  · rename_i hf
    rw [if_neg hf] at hq hh hd
    split
    · rename_i hl
      have hl2 : (i :: w :: ws).length ≠ 2 := by omega
      rw [if_neg hl2] at hq hh hd
      refine ⟨⟨hr.id, ht, ?_, ?_, ?_⟩, rfl, rfl⟩
      · simp only [quadCount]; rw [hq, e1]; simp
      · simp only [highCount]; rw [hh, e2]
      · simp only [degCount]; rw [hd, e3]
    · rename_i hl
      have hl2 : (i :: w :: ws).length = 2 := by simp only [List.length_cons] at hl ⊢; omega
      rw [if_pos hl2] at hq hh hd
      refine ⟨⟨hr.id, ht, ?_, ?_, ?_⟩, rfl, rfl⟩
      · simp only [quadCount]; rw [hq, e1]
      · simp only [highCount]; rw [hh, e2]; simp
      · simp only [degCount]; rw [hd, e3]; simp

/-- The result of AddTerm with a term that has a variable: only the record of the first variable changes. -/
structure Added (D : Nat) (h : HOE R) (c : R) (v : Nat) (vs : List Nat) (h' : HOE R) : Prop where
  ok : OK D h'
  counter : h'.varCounter = h.varCounter
  constant : h'.constantTerm = h.constantTerm
  len : h'.varRecords.length = h.varRecords.length
  val : ∀ x, hoeVal x h' = hoeVal x h + monomial x c (v :: vs)
  other : ∀ j, j ≠ v → h'.varRecords[j]? = h.varRecords[j]?
  same : ∀ r, h.varRecords[v]? = some r → ∃ r', h'.varRecords[v]? = some r' ∧
    (c = 0 → r'.terms = r.terms) ∧ (vs = [] → r'.terms = r.terms) ∧ (c ≠ 0 → vs ≠ [] → r'.terms = (insertTerm c (v :: vs) r.terms).1)

theorem recOK_coeff {D n i : Nat} {r : VarRecord R} (hr : RecOK D n i r) (c : R) : RecOK D n i { r with coeff := c } := ⟨hr.id, hr.terms, hr.quad, hr.high, hr.deg⟩

theorem addUnary_added {D : Nat} {h : HOE R} (hk : OK D h) (c : R) (v : Nat) {r : VarRecord R} (hr : h.varRecords[v]? = some r) :
    Added D h c v [] { h with varRecords := h.varRecords.set v { r with coeff := r.coeff + c } } := by
  have hlt := (List.getElem?_eq_some_iff.1 hr).1
  refine ⟨hk.setRec v _ (recOK_coeff (hk.recs v r hr) _), rfl, rfl, by simp, ?_, ?_, ?_⟩
  · intro x
    simp only [hoeVal]
    rw [sum_set (recVal x) _ v _ r hr]
    simp only [recVal, (hk.recs v r hr).id, mono_add]
    ring
  · intro j hj
    simp only [List.getElem?_set, if_neg (Ne.symm hj)]
  · intro r0 hr0
    rw [hr] at hr0
    cases hr0
    exact ⟨{ r with coeff := r.coeff + c }, by simp [hlt], fun _ => rfl, fun _ => rfl, fun _ h => absurd rfl h⟩

theorem addTerm_spec {D : Nat} {h : HOE R} (hk : OK D h) (c : R) (v : Nat) (vs : List Nat) (hv : ValidVars D h.varCounter (v :: vs)) :
    ∃ h', addTerm D h c (v :: vs) = some h' ∧ Added D h c v vs h' := by
  obtain ⟨r, hr⟩ := hk.get (hv.range v (by simp))
  have hlt := (List.getElem?_eq_some_iff.1 hr).1
  by_cases hc : c = 0
  · refine ⟨h, by simp [addTerm, hc], hk, rfl, rfl, rfl, ?_, fun _ _ => rfl, ?_⟩
    · intro x; rw [hc, mono_zero]; ring
    · intro r0 hr0
      exact ⟨r0, hr0, fun _ => rfl, fun _ => rfl, fun h _ => absurd hc h⟩
  · cases vs with
    | nil =>
      refine ⟨_, by simp [addTerm, hc, hr], addUnary_added hk c v hr⟩
    | cons w ws =>
      have hs := addToRecord_spec (hk.recs v r hr) c w ws hv
      have hd := hv.degree
      refine ⟨_, by unfold addTerm; rw [if_neg hc]; simp only [if_pos hd, hr], hk.setRec v _ hs.1, rfl, rfl, by simp, ?_, ?_, ?_⟩
      · intro x
        simp only [hoeVal]
        rw [sum_set (recVal x) _ v _ r hr]
        simp only [recVal, hs.1.id, (hk.recs v r hr).id, hs.2.1, hs.2.2, insertTerm_val]
        ring
      · intro j hj
        simp only [List.getElem?_set, if_neg (Ne.symm hj)]
      · intro r0 hr0
        rw [hr] at hr0
        cases hr0
        exact ⟨addToRecord r c (v :: w :: ws), by simp [hlt], fun h => absurd h hc, fun h => absurd h (by simp), fun _ _ => hs.2.2⟩

theorem addUnaryTerm_spec {D : Nat} {h : HOE R} (hk : OK D h) (c : R) (v : Nat) (hv : v < h.varCounter) : ∃ h', addUnaryTerm h v c = some h' ∧ Added D h c v [] h' := by
  obtain ⟨r, hr⟩ := hk.get hv
  exact ⟨_, by simp [addUnaryTerm, hr], addUnary_added hk c v hr⟩

theorem OK.constant {D : Nat} {h : HOE R} (hk : OK D h) (c : R) : OK D { h with constantTerm := c } := ⟨hk.size, hk.recs⟩

/-! ### AddVar -/

theorem RecOK.mono {D n m i : Nat} {r : VarRecord R} (hr : RecOK D n i r) (h : n ≤ m) : RecOK D m i r :=
  ⟨hr.id, fun t ht => by obtain ⟨w, ws, a, b, c, d⟩ := hr.terms t ht; exact ⟨w, ws, a, b, fun v hv => lt_of_lt_of_le (c v hv) h, d⟩, hr.quad, hr.high, hr.deg⟩

theorem addVar_spec {D : Nat} {h : HOE R} (hk : OK D h) : OK D (addVar h).2 ∧ (addVar h).1 = h.varCounter ∧ (addVar h).2.varCounter = h.varCounter + 1 ∧ (∀ x, hoeVal x (addVar h).2 = hoeVal x h) ∧
    (∀ i, i < h.varCounter → (addVar h).2.varRecords[i]? = h.varRecords[i]?) ∧ (∀ r, (addVar h).2.varRecords[h.varCounter]? = some r → r.terms = []) := by
  refine ⟨⟨by simp [addVar, hk.size], ?_⟩, rfl, rfl, ?_, ?_, ?_⟩
  · intro i r hi
    simp only [addVar, List.getElem?_append] at hi
    split at hi
    · exact (hk.recs i r hi).mono (Nat.le_succ _)
    · rename_i hlt
      rw [hk.size] at hi hlt
      have : i - h.varCounter = 0 := by
        have := (List.getElem?_eq_some_iff.1 hi).1
        simp at this; omega
      rw [this] at hi
      simp only [List.getElem?_cons_zero, Option.some.injEq] at hi
      subst hi
      exact ⟨by simp only []; omega, by simp, rfl, rfl, rfl⟩
  · intro x
    simp [hoeVal, addVar, recVal, mono_zero, termsVal]
  · intro i hi
    simp only [addVar]
    rw [List.getElem?_append_left (by rw [hk.size]; exact hi)]
  · intro r hr
    simp only [addVar, ← hk.size, List.getElem?_concat_length, Option.some.injEq] at hr
    subst hr; rfl

theorem addVars_spec {D : Nat} : ∀ (n : Nat) {h : HOE R}, OK D h → OK D (addVars h n).2 ∧ (addVars h n).1 = h.varCounter ∧ (addVars h n).2.varCounter = h.varCounter + n ∧
    (∀ x, hoeVal x (addVars h n).2 = hoeVal x h) ∧ (addVars h n).2.constantTerm = h.constantTerm
  | 0, h, hk => ⟨hk, rfl, rfl, fun _ => rfl, rfl⟩
  | n + 1, h, hk => by
    have h1 := addVar_spec hk
    have h2 := addVars_spec n h1.1
    refine ⟨h2.1, rfl, ?_, ?_, h2.2.2.2.2⟩
    · simp only [addVars]; rw [h2.2.2.1, h1.2.2.1]; omega
    · intro x; simp only [addVars]; rw [h2.2.2.2.1, h1.2.2.2.1]

end OpenGM.Hoe
