import Verif.Model.Sat
import Verif.Spec.TwoSat
import Verif.Lemmas.Built
import Verif.Lemmas.ExplicitModel
import Mathlib.Tactic.ByContra
import Mathlib.Tactic.IntervalCases
/-
SAT: the implication graph and satisfiability.
-/
namespace OpenGM
namespace Sat
open Spec

/-! ### implication graphs -/

/-- The opposite literal. -/
def neg (n w : Nat) : Nat := if w < n then w + n else w - n

theorem neg_lt {n w : Nat} (h : w < 2 * n) : neg n w < 2 * n := by unfold neg; split <;> omega

theorem neg_neg {n w : Nat} (h : w < 2 * n) : neg n (neg n w) = w := by unfold neg; split <;> split <;> omega

section
variable {n : Nat} {E : Nat → Nat → Prop}

theorem reach_range (hr : ∀ a b, E a b → a < 2 * n ∧ b < 2 * n) {a b : Nat} (h : Relation.ReflTransGen E a b) (ha : a < 2 * n) : b < 2 * n := by
  induction h with
  | refl => exact ha
  | tail _ h _ => exact (hr _ _ h).2

theorem reach_skew (hs : ∀ a b, E a b → E (neg n b) (neg n a)) {a b : Nat} (h : Relation.ReflTransGen E a b) : Relation.ReflTransGen E (neg n b) (neg n a) := by
  induction h with
  | refl => exact Relation.ReflTransGen.refl
  | tail _ h ih => exact Relation.ReflTransGen.head (hs _ _ h) ih

theorem reach_closed {T : Nat → Prop} (hT : ∀ a b, T a → E a b → T b) {a b : Nat} (h : Relation.ReflTransGen E a b) (ha : T a) : T b := by
  induction h with
  | refl => exact ha
  | tail _ h ih => exact hT _ _ ih h

theorem exists_assignment (hr : ∀ a b, E a b → a < 2 * n ∧ b < 2 * n) (hs : ∀ a b, E a b → E (neg n b) (neg n a))
    (hno : ∀ i, i < n → ¬ (Relation.ReflTransGen E i (i + n) ∧ Relation.ReflTransGen E (i + n) i)) : ∀ k, k ≤ n →
    ∃ T : Nat → Prop, (∀ a b, T a → E a b → T b) ∧ (∀ w, T w → w < 2 * n ∧ ¬ T (neg n w)) ∧ ∀ i, i < k → T i ∨ T (i + n)
  | 0, _ => ⟨fun _ => False, by simp, by simp, by simp⟩
  | k + 1, hk => by
    obtain ⟨T, h1, h2, h3⟩ := exists_assignment hr hs hno k (by omega)
    by_cases hdone : T k ∨ T (k + n)
    · refine ⟨T, h1, h2, fun i hi => ?_⟩
      by_cases hik : i = k
      · subst hik; exact hdone
      · exact h3 i (by omega)
    · rw [not_or] at hdone
      have hpick : ∃ l, (l = k ∨ l = k + n) ∧ ¬ Relation.ReflTransGen E l (neg n l) := by
        by_contra hcon
        apply hno k (by omega)
        refine ⟨?_, ?_⟩
        · by_contra h'
          exact hcon ⟨k, Or.inl rfl, by unfold neg; rw [if_pos (by omega)]; exact h'⟩
        · by_contra h'
          exact hcon ⟨k + n, Or.inr rfl, by unfold neg; rw [if_neg (by omega), Nat.add_sub_cancel]; exact h'⟩
      obtain ⟨l, hl, hlno⟩ := hpick
      have hl2 : l < 2 * n := by omega
      have hTl : ¬ T (neg n l) := by
        rcases hl with rfl | rfl
        · unfold neg; rw [if_pos (by omega)]; exact hdone.2
        · unfold neg; rw [if_neg (by omega), Nat.add_sub_cancel]; exact hdone.1
      refine ⟨fun w => T w ∨ Relation.ReflTransGen E l w, ?_, ?_, ?_⟩
      · rintro a b (ha | ha) hab
        · exact Or.inl (h1 a b ha hab)
        · exact Or.inr (ha.tail hab)
      · rintro w (hw | hw)
        · refine ⟨(h2 w hw).1, ?_⟩
          rintro (h' | h')
          · exact (h2 w hw).2 h'
          · have := reach_skew hs h'
            rw [neg_neg (h2 w hw).1] at this
            exact hTl (reach_closed h1 this hw)
        · have hw2 := reach_range hr hw hl2
          refine ⟨hw2, ?_⟩
          rintro (h' | h')
          · exact hTl (reach_closed h1 (reach_skew hs hw) h')
          · have := reach_skew hs h'
            rw [neg_neg hw2] at this
            exact hlno (hw.trans this)
      · intro i hi
        by_cases hik : i = k
        · subst hik
          rcases hl with rfl | rfl
          · exact Or.inl (Or.inr Relation.ReflTransGen.refl)
          · exact Or.inr (Or.inr Relation.ReflTransGen.refl)
        · rcases h3 i (by omega) with h' | h'
          · exact Or.inl (Or.inl h')
          · exact Or.inr (Or.inl h')
end

/-! ### the graph of a model -/

variable {gm : GM Bool} {p : Problem Bool}

/-- The edges for the terms. -/
def IsEdge (n : Nat) (ts : List (Term Bool)) (e : Nat × Nat) : Prop :=
  ∃ t ∈ ts, ∃ u v a b, t.vars = [u, v] ∧ a < 2 ∧ b < 2 ∧ t.table [a, b] = false ∧ (e = (u + a * n, v + (1 - b) * n) ∨ e = (v + b * n, u + (1 - a) * n))

theorem addClause_spec {f : FactorRec} {t : Term Bool} (hm : FactorMatches gm f t) {u v : Nat} (huv : t.vars = [u, v]) (h2 : ∀ k ∈ gm.numLabels, k = 2) {a b : Nat} (ha : a < 2) (hb : b < 2)
    (g : Edges) : ∃ g', addClause gm f a b g = some g' ∧ ∀ e, e ∈ g' ↔ e ∈ g ∨ (t.table [a, b] = false ∧
      (e = (u + a * gm.numLabels.length, v + (1 - b) * gm.numLabels.length) ∨ e = (v + b * gm.numLabels.length, u + (1 - a) * gm.numLabels.length))) := by
  have hu : u < gm.numLabels.length := hm.range u (by rw [huv]; simp)
  have hv : v < gm.numLabels.length := hm.range v (by rw [huv]; simp)
  have hrs : restrict gm.numLabels t.vars = [2, 2] := by
    rw [huv]
    simp only [restrict, List.map_cons, List.map_nil, List.getD_eq_getElem?_getD, List.getElem?_eq_getElem hu, List.getElem?_eq_getElem hv, Option.getD_some]
    rw [h2 _ (List.getElem_mem hu), h2 _ (List.getElem_mem hv)]
  obtain ⟨fn, g1, g2, g3⟩ := hm.fn
  rw [hrs] at g2
  have hin : InShape fn.shape [a, b] := by rw [g2]; exact ⟨ha, hb, trivial⟩
  have hcall : gm.callFactor f [a, b] = some (t.table [a, b]) := by
    unfold GM.callFactor
    rw [g1]
    simp only
    rw [ExplicitModel.callFn_eq (by rw [g2]; simp) hin, g3 _ hin]
  have hsize : f.visSize = 2 := by rw [hm.visSize, huv]; rfl
  have hvis0 : gm.visAt f 0 = some u := by rw [hm.visAt 0 (by omega), huv]; rfl
  have hvis1 : gm.visAt f 1 = some v := by rw [hm.visAt 1 (by omega), huv]; rfl
  unfold addClause
  rw [hcall, hvis0, hvis1]
  cases ht : t.table [a, b] with
  | true => exact ⟨g, rfl, fun e => by simp⟩
  | false =>
    refine ⟨_, rfl, fun e => ?_⟩
    simp only [vertex, GM.numberOfVariables, Nat.zero_add, List.mem_append, List.mem_singleton, true_and]
    tauto

theorem addFactorEdges_spec {f : FactorRec} {t : Term Bool} (hm : FactorMatches gm f t) (hl : t.vars.length = 2) (h2 : ∀ k ∈ gm.numLabels, k = 2)
    (g : Edges) : ∃ g', addFactorEdges gm f g = some g' ∧ ∀ e, e ∈ g' ↔ e ∈ g ∨ IsEdge gm.numLabels.length [t] e := by
  obtain ⟨u, v, huv⟩ : ∃ u v, t.vars = [u, v] := by
    match t.vars, hl with
    | [u, v], _ => exact ⟨u, v, rfl⟩
  obtain ⟨g1, a1, b1⟩ := addClause_spec hm huv h2 (show 0 < 2 by omega) (show 0 < 2 by omega) g
  obtain ⟨g2, a2, b2⟩ := addClause_spec hm huv h2 (show 0 < 2 by omega) (show 1 < 2 by omega) g1
  obtain ⟨g3, a3, b3⟩ := addClause_spec hm huv h2 (show 1 < 2 by omega) (show 0 < 2 by omega) g2
  obtain ⟨g4, a4, b4⟩ := addClause_spec hm huv h2 (show 1 < 2 by omega) (show 1 < 2 by omega) g3
  refine ⟨g4, ?_, fun e => ?_⟩
  · unfold addFactorEdges
    rw [a1, Option.bind_some, a2, Option.bind_some, a3, Option.bind_some, a4]
  · rw [b4, b3, b2, b1]
    constructor
    · rintro ((((h | h) | h) | h) | h)
      · exact Or.inl h
      · exact Or.inr ⟨t, by simp, u, v, 0, 0, huv, by omega, by omega, h.1, h.2⟩
      · exact Or.inr ⟨t, by simp, u, v, 0, 1, huv, by omega, by omega, h.1, h.2⟩
      · exact Or.inr ⟨t, by simp, u, v, 1, 0, huv, by omega, by omega, h.1, h.2⟩
      · exact Or.inr ⟨t, by simp, u, v, 1, 1, huv, by omega, by omega, h.1, h.2⟩
    · rintro (h | ⟨t', ht', u', v', a, b, huv', ha, hb, htab, he⟩)
      · exact Or.inl (Or.inl (Or.inl (Or.inl h)))
      · rw [List.mem_singleton] at ht'
        subst ht'
        rw [huv] at huv'
        simp only [List.cons.injEq, and_true] at huv'
        obtain ⟨rfl, rfl⟩ := huv'
        interval_cases a <;> interval_cases b
        · exact Or.inl (Or.inl (Or.inl (Or.inr ⟨htab, he⟩)))
        · exact Or.inl (Or.inl (Or.inr ⟨htab, he⟩))
        · exact Or.inl (Or.inr ⟨htab, he⟩)
        · exact Or.inr ⟨htab, he⟩

theorem buildGraph_spec (h2 : ∀ k ∈ gm.numLabels, k = 2) {fs : List FactorRec} {ts : List (Term Bool)} (h : List.Forall₂ (FactorMatches gm) fs ts) :
    ∀ (g : Edges), (∀ t ∈ ts, t.vars.length = 2) → ∃ g', buildGraph gm fs g = .ok g' () ∧ ∀ e, e ∈ g' ↔ e ∈ g ∨ IsEdge gm.numLabels.length ts e := by
  induction h with
  | nil => intro g _; exact ⟨g, rfl, fun e => by simp [IsEdge]⟩
  | @cons f t fs ts hm _ ih =>
    intro g ht
    obtain ⟨g1, a1, b1⟩ := addFactorEdges_spec hm (ht t (by simp)) h2 g
    obtain ⟨g2, a2, b2⟩ := ih g1 (fun t h => ht t (by simp [h]))
    refine ⟨g2, ?_, fun e => ?_⟩
    · rw [buildGraph, if_neg (by rw [hm.visSize, ht t (by simp)]; simp), a1]
      exact a2
    · rw [b2, b1]
      simp only [IsEdge, List.mem_cons, List.not_mem_nil, or_false]
      constructor
      · rintro ((h | ⟨t', rfl, h⟩) | ⟨t', h, h'⟩)
        · exact Or.inl h
        · exact Or.inr ⟨t', Or.inl rfl, h⟩
        · exact Or.inr ⟨t', Or.inr h, h'⟩
      · rintro (h | ⟨t', h | h, h'⟩)
        · exact Or.inl (Or.inl h)
        · exact Or.inl (Or.inr ⟨t', h, h'⟩)
        · exact Or.inr ⟨t', h, h'⟩

theorem buildGraph_throws (h2 : ∀ k ∈ gm.numLabels, k = 2) {fs : List FactorRec} {ts : List (Term Bool)} (h : List.Forall₂ (FactorMatches gm) fs ts) :
    ∀ (g : Edges), (∃ t ∈ ts, t.vars.length ≠ 2) → buildGraph gm fs g = .throw () := by
  induction h with
  | nil => intro g ht; simp at ht
  | @cons f t fs ts hm _ ih =>
    intro g ht
    rw [buildGraph, hm.visSize]
    split
    · rfl
    · rename_i hl
      rw [ne_eq, not_not] at hl
      obtain ⟨g1, a1, b1⟩ := addFactorEdges_spec hm hl h2 g
      rw [a1]
      refine ih g1 ?_
      obtain ⟨t', ht', hn⟩ := ht
      rcases List.mem_cons.mp ht' with rfl | ht'
      · exact absurd hl hn
      · exact ⟨t', ht', hn⟩

theorem valueLoop_spec (component : List Nat) (n : Nat) (hl : component.length = 2 * n) : ∀ (is : List Nat) (b : Bool), (∀ i ∈ is, i < n) →
    ∃ r, valueLoop component n is b = some r ∧ (r = true ↔ b = true ∧ ∀ i ∈ is, component[i]? ≠ component[i + n]?)
  | [], b, _ => ⟨b, rfl, by simp⟩
  | i :: is, b, h => by
    have hi := h i (by simp)
    have h1 : component[i]? = some (component[i]'(by omega)) := List.getElem?_eq_getElem _
    have h2 : component[i + n]? = some (component[i + n]'(by omega)) := List.getElem?_eq_getElem _
    obtain ⟨r, e1, e2⟩ := valueLoop_spec component n hl is (if component[i]'(by omega) = component[i + n]'(by omega) then false else b) (fun j hj => h j (by simp [hj]))
    refine ⟨r, ?_, ?_⟩
    · rw [valueLoop, h1, h2]
      exact e1
    · rw [e2]
      simp only [List.mem_cons, forall_eq_or_imp, h1, h2, ne_eq, Option.some.injEq]
      split
      · rename_i hc
        simp [hc]
      · rename_i hc
        simp [hc]

theorem conjunction_true (ts : List (Term Bool)) (x : List Nat) : (ts.map (fun t => t.value x)).foldl conjunction.op conjunction.neutral = true ↔ ∀ t ∈ ts, t.value x = true := by
  have : ∀ (l : List Bool) (b : Bool), l.foldl conjunction.op b = true ↔ b = true ∧ ∀ c ∈ l, c = true := by
    intro l
    induction l with
    | nil => intro b; simp
    | cons a l ih =>
      intro b
      rw [List.foldl_cons, ih]
      simp [conjunction, and_assoc]
  rw [this]
  simp [conjunction]

/-- The literal is true. -/
def IsTrue (n : Nat) (x : List Nat) (w : Nat) : Prop := if w < n then x.getD w 0 = 0 else x.getD (w - n) 0 = 1

theorem isTrue_lit {n v l : Nat} {x : List Nat} (hv : v < n) (hl : l < 2) : IsTrue n x (v + l * n) ↔ x.getD v 0 = l := by
  unfold IsTrue
  interval_cases l
  · simp [hv]
  · rw [if_neg (by omega)]
    have : v + 1 * n - n = v := by omega
    rw [this]

theorem satisfiable_iff (hr : Represents gm p) (h2 : ∀ k ∈ p.numLabels, k = 2) (ht : ∀ t ∈ p.terms, t.vars.length = 2) {g : Edges}
    (hg : ∀ e, e ∈ g ↔ IsEdge p.numLabels.length p.terms e) :
    p.Satisfiable ↔ ∀ i, i < p.numLabels.length → ¬ (Reaches g i (i + p.numLabels.length) ∧ Reaches g (i + p.numLabels.length) i) := by
  obtain ⟨n, hn⟩ : ∃ n, n = p.numLabels.length := ⟨_, rfl⟩
  rw [← hn] at hg ⊢
  have hvars : ∀ t ∈ p.terms, ∀ u v, t.vars = [u, v] → u < n ∧ v < n := by
    intro t htm u v huv
    obtain ⟨i, hi, rfl⟩ := List.mem_iff_getElem.mp htm
    have hlen : gm.factors.length = p.terms.length := hr.factors.length_eq
    have hm : FactorMatches gm (gm.factors[i]'(by omega)) p.terms[i] := List.Forall₂.get hr.factors (by omega) hi
    have hlab := hr.labels
    refine ⟨?_, ?_⟩
    · have := hm.range u (by rw [huv]; simp); rw [hlab] at this; omega
    · have := hm.range v (by rw [huv]; simp); rw [hlab] at this; omega
  have hlab2 : ∀ v : Nat, v < n → p.numLabels[v]? = some 2 := by
    intro v hv
    rw [List.getElem?_eq_getElem (by omega), h2 _ (List.getElem_mem _)]
  have hval : ∀ (t : Term Bool) (x : List Nat) (u v : Nat), t.vars = [u, v] → t.value x = t.table [x.getD u 0, x.getD v 0] := by
    intro t x u v huv
    unfold Term.value
    rw [huv]
    rfl
  constructor
  · rintro ⟨x, hx, he⟩ i hi ⟨h1, h1'⟩
    unfold Problem.energy at he
    rw [conjunction_true] at he
    have hxl : ∀ v, v < n → x.getD v 0 < 2 := by
      intro v hv
      have hxv : x[v]? = some (x[v]'(by rw [hx.1]; omega)) := List.getElem?_eq_getElem _
      rw [List.getD_eq_getElem?_getD, hxv]
      exact hx.2 v _ 2 hxv (hlab2 v hv)
    have hclosed : ∀ a b, IsTrue n x a → (a, b) ∈ g → IsTrue n x b := by
      intro a b ha hab
      obtain ⟨t, htm, u, v, l, m, huv, hl, hm, htab, h'⟩ := (hg (a, b)).mp hab
      obtain ⟨hu, hv⟩ := hvars t htm u v huv
      have hsat := he t htm
      rw [hval t x u v huv] at hsat
      have h3 := hxl u hu
      have h4 := hxl v hv
      rcases h' with h' | h' <;> simp only [Prod.mk.injEq] at h' <;> obtain ⟨rfl, rfl⟩ := h'
      · rw [isTrue_lit hu hl] at ha
        rw [isTrue_lit hv (by omega)]
        by_contra hb
        have : x.getD v 0 = m := by omega
        rw [ha, this, htab] at hsat
        exact absurd hsat (by simp)
      · rw [isTrue_lit hv hm] at ha
        rw [isTrue_lit hu (by omega)]
        by_contra hb
        have : x.getD u 0 = l := by omega
        rw [ha, this, htab] at hsat
        exact absurd hsat (by simp)
    have h0 : IsTrue n x i ↔ x.getD i 0 = 0 := by
      have := isTrue_lit (x := x) hi (show 0 < 2 by omega)
      simpa using this
    have h1n : IsTrue n x (i + n) ↔ x.getD i 0 = 1 := by
      have := isTrue_lit (x := x) hi (show 1 < 2 by omega)
      simpa using this
    have hi2 := hxl i hi
    by_cases hxi : x.getD i 0 = 0
    · have := h1n.mp (reach_closed hclosed h1 (h0.mpr hxi))
      omega
    · have := h0.mp (reach_closed hclosed h1' (h1n.mpr (by omega)))
      omega
  · intro hno
    obtain ⟨T, t1, t2, t3⟩ := exists_assignment (n := n) (E := fun a b => (a, b) ∈ g) (by
      intro a b hab
      obtain ⟨t, htm, u, v, l, m, huv, hl, hm, htab, h'⟩ := (hg (a, b)).mp hab
      obtain ⟨hu, hv⟩ := hvars t htm u v huv
      interval_cases l <;> interval_cases m <;> rcases h' with h' | h' <;> simp only [Prod.mk.injEq] at h' <;> obtain ⟨rfl, rfl⟩ := h' <;> constructor <;> omega) (by
      intro a b hab
      obtain ⟨t, htm, u, v, l, m, huv, hl, hm, htab, h'⟩ := (hg (a, b)).mp hab
      obtain ⟨hu, hv⟩ := hvars t htm u v huv
      refine (hg _).mpr ⟨t, htm, u, v, l, m, huv, hl, hm, htab, ?_⟩
      have hnu : neg n (u + (1 - l) * n) = u + l * n := by interval_cases l <;> unfold neg <;> split <;> omega
      have hnu' : neg n (u + l * n) = u + (1 - l) * n := by interval_cases l <;> unfold neg <;> split <;> omega
      have hnv : neg n (v + (1 - m) * n) = v + m * n := by interval_cases m <;> unfold neg <;> split <;> omega
      have hnv' : neg n (v + m * n) = v + (1 - m) * n := by interval_cases m <;> unfold neg <;> split <;> omega
      rcases h' with h' | h' <;> simp only [Prod.mk.injEq] at h' <;> obtain ⟨rfl, rfl⟩ := h'
      · exact Or.inr (by rw [hnv, hnu'])
      · exact Or.inl (by rw [hnu, hnv'])) hno n (le_refl n)
    classical
    obtain ⟨x, hxdef⟩ : ∃ x : List Nat, x = (List.range n).map (fun v => if T v then 0 else 1) := ⟨_, rfl⟩
    have hx : ∀ v, v < n → x.getD v 0 = if T v then 0 else 1 := by
      intro v hv
      rw [hxdef, List.getD_eq_getElem?_getD, List.getElem?_map, List.getElem?_range hv]
      rfl
    have hneg : ∀ v, v < n → (T (v + n) ↔ ¬ T v) := by
      intro v hv
      constructor
      · intro h
        have := (t2 _ h).2
        unfold neg at this
        rw [if_neg (by omega), Nat.add_sub_cancel] at this
        exact this
      · intro h
        rcases t3 v hv with h' | h'
        · exact absurd h' h
        · exact h'
    have hlit : ∀ v l, v < n → l < 2 → x.getD v 0 = l → T (v + l * n) := by
      intro v l hv hl hxl
      rw [hx v hv] at hxl
      interval_cases l
      · simp only [Nat.zero_mul, Nat.add_zero]
        by_contra h
        rw [if_neg h] at hxl
        omega
      · rw [Nat.one_mul, hneg v hv]
        intro h
        rw [if_pos h] at hxl
        omega
    have hlit' : ∀ v l, v < n → l < 2 → T (v + l * n) → x.getD v 0 = l := by
      intro v l hv hl hT
      rw [hx v hv]
      interval_cases l
      · simp only [Nat.zero_mul, Nat.add_zero] at hT
        rw [if_pos hT]
      · rw [Nat.one_mul, hneg v hv] at hT
        rw [if_neg hT]
    have hbound : ∀ v, v < n → x.getD v 0 < 2 := by
      intro v hv
      rw [hx v hv]
      split <;> omega
    refine ⟨x, ⟨by rw [hxdef]; simp [hn], ?_⟩, ?_⟩
    · intro v l k hl hk
      have hv : v < n := by rw [hn]; exact (List.getElem?_eq_some_iff.mp hk).1
      rw [hlab2 v hv] at hk
      have := hbound v hv
      rw [List.getD_eq_getElem?_getD, hl] at this
      rw [← Option.some.inj hk]
      exact this
    · unfold Problem.energy
      rw [conjunction_true]
      intro t htm
      obtain ⟨u, v, huv⟩ : ∃ u v, t.vars = [u, v] := by
        have := ht t htm
        match t.vars, this with
        | [u, v], _ => exact ⟨u, v, rfl⟩
      obtain ⟨hu, hv⟩ := hvars t htm u v huv
      rw [hval t x u v huv]
      by_contra hfalse
      rw [Bool.not_eq_true] at hfalse
      have hbu := hbound u hu
      have hbv := hbound v hv
      have hedge : (u + x.getD u 0 * n, v + (1 - x.getD v 0) * n) ∈ g := (hg _).mpr ⟨t, htm, u, v, _, _, huv, hbu, hbv, hfalse, Or.inl rfl⟩
      have := hlit' v _ hv (by omega) (t1 _ _ (hlit u _ hu hbu rfl) hedge)
      omega

end Sat
end OpenGM
