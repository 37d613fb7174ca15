import Verif.Spec.SwendsenWang
import Mathlib.Algebra.BigOperators.Group.Finset.Sigma
import Mathlib.Algebra.BigOperators.Ring.Finset
import Mathlib.Algebra.Order.BigOperators.Ring.Finset
import Mathlib.Tactic.Ring
import Mathlib.Tactic.FieldSimp
import Mathlib.Tactic.Linarith
/-
Lemmas for detailed balance.
-/
namespace OpenGM.SwendsenWang
open Spec
variable {V F : Type} [Field F] {p : Problem V}

/-- A product over the ordered pairs of two ways to order a pair. -/
theorem prod_pairs (n : Nat) (h : Nat → Nat → F) (hd : ∀ v, h v v = 1) :
    (∏ e ∈ Finset.range n ×ˢ Finset.range n, if e.1 < e.2 then h e.1 e.2 * h e.2 e.1 else 1) = ∏ v ∈ Finset.range n, ∏ w ∈ Finset.range n, h v w := by
  have h1 : (∏ e ∈ Finset.range n ×ˢ Finset.range n, if e.1 < e.2 then h e.1 e.2 * h e.2 e.1 else 1) =
      (∏ e ∈ Finset.range n ×ˢ Finset.range n, if e.1 < e.2 then h e.1 e.2 else 1) * ∏ e ∈ Finset.range n ×ˢ Finset.range n, if e.1 < e.2 then h e.2 e.1 else 1 := by
    rw [← Finset.prod_mul_distrib]
    apply Finset.prod_congr rfl
    intro e _
    split <;> simp
  have h2 : (∏ e ∈ Finset.range n ×ˢ Finset.range n, if e.1 < e.2 then h e.2 e.1 else 1) = ∏ e ∈ Finset.range n ×ˢ Finset.range n, if e.2 < e.1 then h e.1 e.2 else 1 := by
    refine Finset.prod_nbij' Prod.swap Prod.swap ?_ ?_ (fun _ _ => rfl) (fun _ _ => rfl) (fun _ _ => rfl)
    · intro e he; simp only [Finset.mem_product, Prod.fst_swap, Prod.snd_swap] at *; exact ⟨he.2, he.1⟩
    · intro e he; simp only [Finset.mem_product, Prod.fst_swap, Prod.snd_swap] at *; exact ⟨he.2, he.1⟩
  rw [h1, h2, ← Finset.prod_mul_distrib, ← Finset.prod_product']
  apply Finset.prod_congr rfl
  rintro ⟨v, w⟩ _
  simp only
  rcases lt_trichotomy v w with hlt | heq | hlt
  · rw [if_pos hlt, if_neg (by omega), mul_one]
  · subst heq; rw [if_neg (by omega), hd, one_mul]
  · rw [if_neg (by omega), if_pos hlt, one_mul]

/-- What the cluster and the states have to do with each other. -/
structure Flip (p : Problem V) (A : Nat → Nat → Bool) (C : Finset Nat) (x z : List Nat) (old new : Nat) : Prop where
  closed : ∀ v w, v < w → p.adjacent v w = true → A v w = true → (v ∈ C ↔ w ∈ C)
  before : ∀ v ∈ C, x[v]? = some old
  after : ∀ v ∈ C, z[v]? = some new
  outside : ∀ v, v ∉ C → z[v]? = x[v]?

theorem Flip.symm {A : Nat → Nat → Bool} {C : Finset Nat} {x z : List Nat} {old new : Nat} (h : Flip p A C x z old new) : Flip p A C z x new old :=
  ⟨h.closed, h.after, h.before, fun v hv => (h.outside v hv).symm⟩

theorem adjacent_comm (p : Problem V) (v w : Nat) : p.adjacent v w = p.adjacent w v := by
  unfold Problem.adjacent
  congr 1
  · exact decide_eq_decide.mpr ⟨Ne.symm, Ne.symm⟩
  · congr 1; funext t; exact Bool.and_comm _ _

theorem boundary_outside (q : Nat → Nat → F) {C : Finset Nat} {x z : List Nat} (h : ∀ v, v ∉ C → z[v]? = x[v]?) (l : Nat) : p.boundary q C z l = p.boundary q C x l := by
  unfold Problem.boundary
  congr 1
  apply Finset.filter_congr
  intro v _
  constructor
  · rintro ⟨a, b⟩; exact ⟨a, by rw [← h v a]; exact b⟩
  · rintro ⟨a, b⟩; exact ⟨a, by rw [h v a]; exact b⟩

/-- The factor of the weight that the flip does not change. -/
def common (p : Problem V) (q : Nat → Nat → F) (C : Finset Nat) (x : List Nat) (A : Nat → Nat → Bool) : F :=
  ∏ e ∈ Finset.range p.numLabels.length ×ˢ Finset.range p.numLabels.length, if e.1 < e.2 ∧ p.adjacent e.1 e.2 = true ∧ x[e.1]? = x[e.2]? ∧ (e.1 ∈ C ↔ e.2 ∈ C) then (if A e.1 e.2 then q e.1 e.2 else 1 - q e.1 e.2) else 1

theorem common_flip (q : Nat → Nat → F) {A : Nat → Nat → Bool} {C : Finset Nat} {x z : List Nat} {old new : Nat} (h : Flip p A C x z old new) : common p q C z A = common p q C x A := by
  unfold common
  apply Finset.prod_congr rfl
  rintro ⟨v, w⟩ _
  simp only
  have : (v < w ∧ p.adjacent v w = true ∧ z[v]? = z[w]? ∧ (v ∈ C ↔ w ∈ C)) ↔ (v < w ∧ p.adjacent v w = true ∧ x[v]? = x[w]? ∧ (v ∈ C ↔ w ∈ C)) := by
    refine and_congr_right (fun _ => and_congr_right (fun _ => and_congr_left (fun hc => ?_)))
    by_cases hv : v ∈ C
    · rw [h.before v hv, h.after v hv, h.before w (hc.mp hv), h.after w (hc.mp hv)]
      simp
    · rw [h.outside v hv, h.outside w (fun hw => hv (hc.mpr hw))]
  simp only [this]

theorem weight_split (q : Nat → Nat → F) (hq : ∀ v w, q v w = q w v) {A : Nat → Nat → Bool} {C : Finset Nat} {x z : List Nat} {old new : Nat} (h : Flip p A C x z old new) :
    p.edgeWeight q x A = common p q C x A * p.boundary q C x old := by
  have hb : p.boundary q C x old = ∏ v ∈ Finset.range p.numLabels.length, ∏ w ∈ Finset.range p.numLabels.length, (if v ∉ C ∧ x[v]? = some old ∧ w ∈ C ∧ p.adjacent v w = true then 1 - q v w else 1) := by
    unfold Problem.boundary
    rw [Finset.prod_filter]
    apply Finset.prod_congr rfl
    intro v _
    by_cases hv : v ∉ C ∧ x[v]? = some old
    · rw [if_pos hv, Finset.prod_filter]
      apply Finset.prod_congr rfl
      intro w _
      simp only [hv, true_and, not_false_eq_true]
    · rw [if_neg hv]
      symm
      apply Finset.prod_eq_one
      intro w _
      rw [if_neg (fun h' => hv ⟨h'.1, h'.2.1⟩)]
  rw [hb, ← prod_pairs _ (fun v w => if v ∉ C ∧ x[v]? = some old ∧ w ∈ C ∧ p.adjacent v w = true then 1 - q v w else 1) (fun v => if_neg (fun h' => h'.1 h'.2.2.1))]
  unfold Problem.edgeWeight common
  rw [Finset.prod_filter, ← Finset.prod_mul_distrib]
  apply Finset.prod_congr rfl
  rintro ⟨v, w⟩ _
  simp only
  by_cases hlt : v < w
  · rw [if_pos hlt]
    by_cases ha : p.adjacent v w = true
    · have ha' : p.adjacent w v = true := by rw [adjacent_comm]; exact ha
      by_cases hv : v ∈ C
      · by_cases hw : w ∈ C
        · simp [hlt, ha, hv, hw]
        · have hA : ¬ A v w = true := fun hA => hw ((h.closed v w hlt ha hA).mp hv)
          have hx := h.before v hv
          have hx' : (x[v]? = x[w]?) ↔ x[w]? = some old := by rw [hx]; exact eq_comm
          simp only [hlt, ha, hv, hw, hx', true_and, not_true, not_false_eq_true, false_and, if_false, one_mul, and_false, and_true, ha', iff_false, not_true]
          rw [if_neg hA, hq v w]
      · by_cases hw : w ∈ C
        · have hA : ¬ A v w = true := fun hA => hv ((h.closed v w hlt ha hA).mpr hw)
          have hx := h.before w hw
          have hx' : (x[v]? = x[w]?) ↔ x[v]? = some old := by rw [hx]
          simp only [hlt, ha, hv, hw, hx', true_and, not_true, not_false_eq_true, false_and, if_false, one_mul, mul_one, and_false, and_true, ha']
          simp only [if_neg hA]
          simp
        · simp [hlt, ha, hv, hw]
    · have ha' : ¬ p.adjacent w v = true := by rw [adjacent_comm]; exact ha
      simp [ha, ha']
  · simp [hlt]

theorem weight_pair (q : Nat → Nat → F) (hq : ∀ v w, q v w = q w v) {A : Nat → Nat → Bool} {C : Finset Nat} {x z : List Nat} {old new : Nat} (h : Flip p A C x z old new) :
    ∃ K, p.edgeWeight q x A = K * p.boundary q C x old ∧ p.edgeWeight q z A = K * p.boundary q C x new := by
  refine ⟨common p q C x A, weight_split q hq h, ?_⟩
  rw [weight_split q hq h.symm, common_flip q h, boundary_outside q h.outside]

variable [LinearOrder F] [IsStrictOrderedRing F]

theorem balance (q : Nat → Nat → F) (hq : ∀ v w, q v w = q w v) (hlt : ∀ v w, p.adjacent v w = true → q v w < 1) {A : Nat → Nat → Bool} {C : Finset Nat} {x z : List Nat} {old new : Nat} (h : Flip p A C x z old new) (hne : new ≠ old)
    (pdf : List Nat → F) (hx : 0 < pdf x) (hz : 0 < pdf z) :
    pdf x * p.edgeWeight q x A * min 1 (p.ratio q pdf C x z old new) = pdf z * p.edgeWeight q z A * min 1 (p.ratio q pdf C z x new old) := by
  obtain ⟨K, h1, h2⟩ := weight_pair q hq h
  have hb : ∀ l, 0 < p.boundary q C x l := by
    intro l
    unfold Problem.boundary
    apply Finset.prod_pos
    intro v _
    apply Finset.prod_pos
    intro w hw
    have := hlt v w (Finset.mem_filter.mp hw).2.2
    linarith
  unfold Problem.ratio
  rw [if_neg hne, if_neg hne.symm, boundary_outside q h.outside, boundary_outside q h.outside, h1, h2]
  have bo := hb old
  have bn := hb new
  generalize p.boundary q C x old = b at *
  generalize p.boundary q C x new = c at *
  have e1 : pdf x * b * min 1 (c / b * (pdf z / pdf x)) = min (pdf x * b) (pdf z * c) := by
    rw [mul_min_of_nonneg _ _ (le_of_lt (mul_pos hx bo)), mul_one]
    congr 1
    field_simp
  have e2 : pdf z * c * min 1 (b / c * (pdf x / pdf z)) = min (pdf z * c) (pdf x * b) := by
    rw [mul_min_of_nonneg _ _ (le_of_lt (mul_pos hz bn)), mul_one]
    congr 1
    field_simp
  calc pdf x * (K * b) * min 1 (c / b * (pdf z / pdf x)) = K * (pdf x * b * min 1 (c / b * (pdf z / pdf x))) := by ring
    _ = K * (pdf z * c * min 1 (b / c * (pdf x / pdf z))) := by rw [e1, e2, min_comm]
    _ = _ := by ring

end OpenGM.SwendsenWang
