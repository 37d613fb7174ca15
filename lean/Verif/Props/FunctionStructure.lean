import Verif.Lemmas.FunctionStructure2
import Verif.Props.FunctionValues
/-
C40: the structure predicates of functions, against their mathematical meaning.
-/
namespace OpenGM
namespace Functions
open Walkers Spec FactorOps

variable {V : Type} [CommRing V] [LinearOrder V]

/-! ### Potts -/

/-- C40, isPotts() of a general function, of any order except 1 and any shape without zeros. -/
theorem C40_isPotts_partial {f : Fun V} {shape : List Nat} {g : List Nat → V} (hp : Positive shape) (hd : shape.length ≠ 1)
    (hf : Denotes f shape g) : ∃ r, isPotts f = some r ∧ (r = true ↔ IsPottsTable shape g) :=
  isPotts_spec hp hd hf

example : Denotes (V := ℤ) (PottsN.mk' [2, 3, 2] 0 1).toFun [2, 3, 2] (fun c => ((PottsN.mk' [2, 3, 2] 0 1).toFun.eval c).getD 0) ∧
    Positive [2, 3, 2] ∧ [2, 3, 2].length ≠ 1 := by
  refine ⟨⟨rfl, rfl, ?_⟩, by simp [Positive], by decide⟩
  intro c hc
  rw [(C37_pottsN_denotes [2, 3, 2] (by simp) (0 : ℤ) 1).eval_eq c hc]
  rfl

/-- The function of one variable with the given values. -/
def unary (vs : List ℤ) : Fun ℤ := ⟨[vs.length], vs.length, fun c => match c with | [i] => vs[i]? | _ => none⟩

/-- C40 is violated for functions of one variable: the value of label 1 is not looked at. -/
theorem C40_violated_isPotts_unary : ¬ ∀ (f : Fun ℤ) (shape : List Nat) (g : List Nat → ℤ), Positive shape → Denotes f shape g →
    (isPotts f = some true → IsPottsTable shape g) := by
  intro h
  have hd : Denotes (unary [0, 5, 0]) [3] (fun c => ((unary [0, 5, 0]).eval c).getD 0) := by
    refine ⟨rfl, rfl, ?_⟩
    intro c hc
    match c, hc with
    | [i], ⟨hi, _⟩ =>
      have : i = 0 ∨ i = 1 ∨ i = 2 := by omega
      rcases this with rfl | rfl | rfl <;> rfl
  obtain ⟨e, n, hen⟩ := h _ _ _ (by simp [Positive]) hd (by decide)
  have h0 := (hen [0] (by simp [InShape])).1 (by intro i j hi hj; simp at hi hj; simp [hi, hj])
  have h1 := (hen [1] (by simp [InShape])).1 (by intro i j hi hj; simp at hi hj; simp [hi, hj])
  rw [← h1] at h0
  revert h0
  decide

/-- C40, classes that answer `isPotts()` and `isGeneralizedPotts()` with true by definition: their values have the structure. -/
theorem C40_declared_potts (n1 n2 : Nat) (shape : List Nat) (hs : shape ≠ []) (e n : V) :
    (∃ g, Denotes (Potts.toFun ⟨n1, n2, e, n⟩) [n1, n2] g ∧ IsPottsTable [n1, n2] g ∧ IsGeneralizedPottsTable [n1, n2] g) ∧
    (∃ g, Denotes (PottsN.mk' shape e n).toFun shape g ∧ IsPottsTable shape g ∧ IsGeneralizedPottsTable shape g) ∧
    (∃ g, Denotes (Constant.mk' shape e).toFun shape g ∧ IsPottsTable shape g ∧ IsGeneralizedPottsTable shape g) := by
  classical
  refine ⟨⟨_, C37_potts_denotes n1 n2 e n, ⟨e, n, ?_⟩, ?_⟩, ⟨_, C37_pottsN_denotes shape hs e n, ⟨e, n, ?_⟩, ?_⟩,
    ⟨_, C37_constant_denotes shape e, ⟨e, e, ?_⟩, ?_⟩⟩
  · intro c hc
    obtain ⟨a, b, rfl, _, _⟩ := inShape_two.mp hc
    refine ⟨fun h => if_pos (h 0 1 (by simp) (by simp)), fun h => if_neg (fun h' => h ?_)⟩
    intro i j hi hj
    simp only [List.length_cons, List.length_nil, Nat.zero_add, Nat.reduceAdd] at hi hj
    interval_cases i <;> interval_cases j <;> simp_all
  · intro c c' hc hc' hsp
    obtain ⟨a, b, rfl, _, _⟩ := inShape_two.mp hc
    have := hsp.2 0 1 (by simp) (by simp)
    simp only [this]
  · intro c hc
    exact ⟨fun h => if_pos h, fun h => if_neg h⟩
  · intro c c' hc hc' hsp
    have : AllEqual c ↔ AllEqual c' := by
      unfold AllEqual
      rw [← hsp.1]
      exact forall_congr' fun i => forall_congr' fun j => forall_congr' fun hi => forall_congr' fun hj => hsp.2 i j hi hj
    simp only [this]
  · intro c hc; exact ⟨fun _ => rfl, fun _ => rfl⟩
  · intro c c' _ _ _; rfl

/-- C40, isGeneralizedPotts() of a general function of order 2, 3 or 4 whose variables have at least as many labels as the order. -/
theorem C40_isGeneralizedPotts_partial {f : Fun V} {shape : List Nat} {g : List Nat → V} (hf : Denotes f shape g)
    (hd : shape.length = 2 ∨ shape.length = 3 ∨ shape.length = 4) (hs : ∀ m ∈ shape, shape.length ≤ m) :
    ∃ r, isGeneralizedPotts f = some r ∧ (r = true ↔ IsGeneralizedPottsTable shape g) :=
  isGeneralizedPotts_spec hf hd hs

example : Denotes (Constant.mk' [4, 5, 6, 4] (7 : ℤ)).toFun [4, 5, 6, 4] (fun _ => 7) ∧ ∀ m ∈ [4, 5, 6, 4], [4, 5, 6, 4].length ≤ m :=
  ⟨C37_constant_denotes _ _, by decide⟩

/-- C40 is violated: a function of five variables (or one) is never recognised, even if constant. -/
theorem C40_violated_isGeneralizedPotts_order : ¬ ∀ (f : Fun ℤ) (shape : List Nat) (g : List Nat → ℤ), Positive shape → Denotes f shape g →
    IsGeneralizedPottsTable shape g → isGeneralizedPotts f = some true := by
  intro h
  have := h _ _ _ (by simp [Positive]) (C37_constant_denotes [2, 2, 2, 2, 2] (0 : ℤ)) (fun _ _ _ _ _ => rfl)
  revert this
  decide

/-- A function given by an array: nothing can be read outside of its shape. -/
def arrayFun (shape : List Nat) (g : List Nat → V) : Fun V :=
  ⟨shape, shape.prod, fun c => if (allTuples shape).contains c then some (g c) else none⟩

theorem arrayFun_denotes (shape : List Nat) (g : List Nat → V) : Denotes (arrayFun shape g) shape g :=
  ⟨rfl, rfl, fun c hc => by
    have := (mem_allTuples shape c).mpr hc
    simp [arrayFun, this]⟩

/-- C40 is violated: with fewer labels than variables, isGeneralizedPotts() reads outside of the function. -/
theorem C40_violated_isGeneralizedPotts_range : isGeneralizedPotts (arrayFun [2, 2, 2] (fun _ => (0 : ℤ))) = none := by decide

/-! ### Equality -/

/-- C40, operator== of general functions: equal shapes and equal values (up to the tolerance for floating point types). -/
theorem C40_equality [IsStrictOrderedRing V] {tol : Option V} {fa fb : Fun V} {sa sb : List Nat}
    {ga gb : List Nat → V} (hpa : Positive sa) (ha : Denotes fa sa ga) (hb : Denotes fb sb gb) :
    ∃ r, eqFun tol fa fb = some r ∧ (r = true ↔ sa = sb ∧ ∀ c, InShape sa c → Near tol (ga c) (gb c)) :=
  eqFun_spec hpa ha hb

example : Denotes (arrayFun [2, 3] (fun _ => (0 : ℤ))) [2, 3] (fun _ => 0) ∧ Positive [2, 3] := ⟨arrayFun_denotes _ _, by simp [Positive]⟩

/-- C40, operator== of Potts functions compares parameters: it is equality of shape and values if some variable has two labels. -/
theorem C40_potts_equality (f g : Potts V) : Potts.beq f g = true ↔ f = g := by
  obtain ⟨a, b, c, d⟩ := f
  obtain ⟨a', b', c', d'⟩ := g
  simp only [Potts.beq, Bool.and_eq_true, decide_eq_true_eq, Potts.mk.injEq, and_assoc]

/-! ### Difference functions -/

section Difference
variable [IsStrictOrderedRing V]

/-- C40, isAbsoluteDifference() and isSquaredDifference() with exact comparison, if the first variable has two labels. -/
theorem C40_isDifference_partial {f : Fun V} {n1 n2 : Nat} {g : List Nat → V} (hf : Denotes f [n1, n2] g) (h1 : 2 ≤ n1) (h2 : 1 ≤ n2) :
    (∃ r, isAbsoluteDifference none f = some r ∧ (r = true ↔ IsAbsoluteDifferenceTable n1 n2 g)) ∧
    (∃ r, isSquaredDifference none f = some r ∧ (r = true ↔ IsSquaredDifferenceTable n1 n2 g)) := by
  constructor
  · obtain ⟨r, e, h⟩ := isDifference_spec (tol := none) (d := fun k => (k : V)) hf h1 h2
    refine ⟨r, e, h.trans ?_⟩
    simp only [labelDistance_cast, Near]
    constructor
    · intro h
      exact ⟨g [1, 0], fun a b ha hb => (h a b ha hb).trans (mul_comm _ _)⟩
    · rintro ⟨w, h⟩ a b ha hb
      rw [h a b ha hb, h 1 0 (by omega) (by omega)]
      simp; ring
  · obtain ⟨r, e, h⟩ := isDifference_spec (tol := none) (d := fun k => (k : V) * (k : V)) hf h1 h2
    refine ⟨r, e, h.trans ?_⟩
    simp only [labelDistance_sq, Near]
    constructor
    · intro h
      exact ⟨g [1, 0], fun a b ha hb => (h a b ha hb).trans (mul_comm _ _)⟩
    · rintro ⟨w, h⟩ a b ha hb
      rw [h a b ha hb, h 1 0 (by omega) (by omega)]
      simp; ring

/-- C40, with a tolerance: a positive answer means that the values are those of a difference function up to the tolerance. -/
theorem C40_isDifference_tolerance {f : Fun V} {n1 n2 : Nat} {g : List Nat → V} {t : V} (hf : Denotes f [n1, n2] g) (h1 : 2 ≤ n1) (h2 : 1 ≤ n2) :
    (isAbsoluteDifference (some t) f = some true → ∃ w, ∀ a b, a < n1 → b < n2 → abs (g [a, b] - w * |(a : V) - (b : V)|) < t) ∧
    (isSquaredDifference (some t) f = some true → ∃ w, ∀ a b, a < n1 → b < n2 → |g [a, b] - w * ((a : V) - (b : V)) ^ 2| < t) ∧
    (0 < t → IsAbsoluteDifferenceTable n1 n2 g → isAbsoluteDifference (some t) f = some true) ∧
    (0 < t → IsSquaredDifferenceTable n1 n2 g → isSquaredDifference (some t) f = some true) := by
  obtain ⟨r, e, h⟩ := isDifference_spec (tol := some t) (d := fun k => (k : V)) hf h1 h2
  obtain ⟨r', e', h'⟩ := isDifference_spec (tol := some t) (d := fun k => (k : V) * (k : V)) hf h1 h2
  simp only [labelDistance_cast, Near] at h
  simp only [labelDistance_sq, Near] at h'
  refine ⟨?_, ?_, ?_, ?_⟩
  · intro hr
    unfold isAbsoluteDifference at hr
    rw [e] at hr
    refine ⟨g [1, 0], fun a b ha hb => ?_⟩
    rw [mul_comm]
    exact h.mp (Option.some.inj hr) a b ha hb
  · intro hr
    unfold isSquaredDifference at hr
    rw [e'] at hr
    refine ⟨g [1, 0], fun a b ha hb => ?_⟩
    rw [mul_comm]
    exact h'.mp (Option.some.inj hr) a b ha hb
  · rintro ht ⟨w, hw⟩
    unfold isAbsoluteDifference
    rw [e, h.mpr ?_]
    intro a b ha hb
    rw [hw a b ha hb, hw 1 0 (by omega) (by omega)]
    simpa [mul_comm] using ht
  · rintro ht ⟨w, hw⟩
    unfold isSquaredDifference
    rw [e', h'.mpr ?_]
    intro a b ha hb
    rw [hw a b ha hb, hw 1 0 (by omega) (by omega)]
    simpa [mul_comm] using ht

example : ∃ g, Denotes (Difference.toFunSq ⟨3, 4, (2 : ℤ)⟩) [3, 4] g ∧ 2 ≤ 3 ∧ 1 ≤ 4 :=
  ⟨fun c => (Difference.evalSq ⟨3, 4, (2 : ℤ)⟩ c).getD 0,
    ⟨rfl, rfl, fun c hc => by obtain ⟨x, y, rfl, _, _⟩ := inShape_two.mp hc; rfl⟩, by decide, by decide⟩

omit [LinearOrder V] [IsStrictOrderedRing V] in
/-- C40 is violated: if the first variable has one label, the entry of labels (1, 0) is read. -/
theorem C40_violated_isDifference_range : isAbsoluteDifference none (arrayFun [1, 2] (fun _ => (0 : ℤ))) = none ∧
    isSquaredDifference none (arrayFun [1, 2] (fun _ => (0 : ℤ))) = none := by decide

/-- C40, what a positive answer of the predicates for truncated differences means: every value is the weight times the distance, or the
value at the largest distance from label 0 and then below the weight times the distance. -/
theorem C40_isTruncated_exact {f : Fun V} {n1 n2 : Nat} {g : List Nat → V} (hf : Denotes f [n1, n2] g) (h1 : 2 ≤ n1) (h2 : 1 ≤ n2) :
    (∃ r, isTruncatedAbsoluteDifference none f = some r ∧ (r = true ↔ ∃ w t, w = g [1, 0] ∧ t = g [n1 - 1, 0] ∧ ∀ a b, a < n1 → b < n2 →
      (g [a, b] = w * |(a : V) - (b : V)| ∨ (g [a, b] = t ∧ t < w * |(a : V) - (b : V)|)))) ∧
    (∃ r, isTruncatedSquaredDifference none f = some r ∧ (r = true ↔ ∃ w t, w = g [1, 0] ∧ t = g [n1 - 1, 0] ∧ ∀ a b, a < n1 → b < n2 →
      (g [a, b] = w * ((a : V) - (b : V)) ^ 2 ∨ (g [a, b] = t ∧ t < w * ((a : V) - (b : V)) ^ 2)))) := by
  constructor
  · obtain ⟨r, e, h⟩ := isTruncatedDifference_spec (tol := none) (d := fun k => (k : V)) hf h1 h2
    refine ⟨r, e, h.trans ?_⟩
    simp only [labelDistance_cast, Near, mul_comm (g [1, 0])]
    exact ⟨fun h => ⟨_, _, rfl, rfl, by simpa only [mul_comm] using h⟩, fun ⟨w, t, hw, ht, h⟩ => by subst hw ht; simpa only [mul_comm] using h⟩
  · obtain ⟨r, e, h⟩ := isTruncatedDifference_spec (tol := none) (d := fun k => (k : V) * (k : V)) hf h1 h2
    refine ⟨r, e, h.trans ?_⟩
    simp only [labelDistance_sq, Near]
    exact ⟨fun h => ⟨_, _, rfl, rfl, by simpa only [mul_comm] using h⟩, fun ⟨w, t, hw, ht, h⟩ => by subst hw ht; simpa only [mul_comm] using h⟩

/-- The arithmetic of completeness, for the distance and its square. -/
theorem truncated_aux {w t W T D Dmax : V} (hw : 0 ≤ w) (ht : 0 ≤ t) (hW : W = Min.min w t) (hT : T = Min.min (w * Dmax) t)
    (hle : D ≤ Dmax) (hD : D = 0 ∨ D = 1 ∨ 1 < D) (hm : 1 ≤ Dmax) : Min.min (w * D) t = W * D ∨ (Min.min (w * D) t = T ∧ T < W * D) := by
  subst hW hT
  rcases le_or_gt w t with h | h
  · rw [min_eq_left h]
    rcases le_or_gt (w * D) t with h' | h'
    · left; rw [min_eq_left h']
    · right
      have : t < w * Dmax := lt_of_lt_of_le h' (mul_le_mul_of_nonneg_left hle hw)
      rw [min_eq_right h'.le, min_eq_right this.le]
      exact ⟨rfl, h'⟩
  · rw [min_eq_right h.le]
    rcases hD with rfl | rfl | hD
    · left; simp [ht]
    · left; simp [h.le]
    · have hwD : t ≤ w * D := by nlinarith
      have hwM : t ≤ w * Dmax := by nlinarith
      rw [min_eq_right hwD, min_eq_right hwM]
      rcases ht.eq_or_lt with rfl | ht
      · left; simp
      · right; exact ⟨rfl, by nlinarith⟩

omit [LinearOrder V] [IsStrictOrderedRing V] in
theorem distance_le {n1 n2 a b : Nat} (hn : n2 ≤ n1) (ha : a < n1) (hb : b < n2) : labelDistance a b ≤ n1 - 1 := by
  unfold labelDistance; split <;> omega

/-- C40, truncated differences with nonnegative weight and cut are recognised if the second variable has no more labels than the first. -/
theorem C40_isTruncated_complete_partial {f : Fun V} {n1 n2 : Nat} {g : List Nat → V} (hf : Denotes f [n1, n2] g) (h1 : 2 ≤ n1) (h2 : 1 ≤ n2)
    (hn : n2 ≤ n1) : (IsTruncatedAbsoluteTable n1 n2 g → isTruncatedAbsoluteDifference none f = some true) ∧
      (IsTruncatedSquaredTable n1 n2 g → isTruncatedSquaredDifference none f = some true) := by
  obtain ⟨⟨r, e, h⟩, ⟨r', e', h'⟩⟩ := C40_isTruncated_exact hf h1 h2
  have hcast : ((n1 - 1 : Nat) : V) = (n1 : V) - 1 := by rw [Nat.cast_sub (by omega)]; simp
  have h1M : (1 : V) ≤ ((n1 - 1 : Nat) : V) := by exact_mod_cast (by omega : 1 ≤ n1 - 1)
  constructor
  · rintro ⟨w, t, hw, ht, hg⟩
    rw [e, h.mpr ?_]
    refine ⟨_, _, rfl, rfl, fun a b ha hb => ?_⟩
    have hd := distance_le hn ha hb
    rw [hg a b ha hb, ← labelDistance_cast (V := V)]
    apply truncated_aux (Dmax := ((n1 - 1 : Nat) : V)) hw ht
    · rw [hg 1 0 (by omega) (by omega)]; simp
    · rw [hg (n1 - 1) 0 (by omega) (by omega)]; simp only [Nat.cast_zero, sub_zero, Nat.abs_cast]
    · exact_mod_cast hd
    · rcases Nat.lt_or_ge 1 (labelDistance a b) with h | h
      · right; right; exact_mod_cast h
      · interval_cases labelDistance a b <;> simp
    · exact h1M
  · rintro ⟨w, t, hw, ht, hg⟩
    rw [e', h'.mpr ?_]
    refine ⟨_, _, rfl, rfl, fun a b ha hb => ?_⟩
    have hd := distance_le hn ha hb
    rw [hg a b ha hb, ← labelDistance_sq (V := V)]
    apply truncated_aux (Dmax := ((n1 - 1 : Nat) : V) * ((n1 - 1 : Nat) : V)) hw ht
    · rw [hg 1 0 (by omega) (by omega)]; simp
    · rw [hg (n1 - 1) 0 (by omega) (by omega)]; simp only [Nat.cast_zero, sub_zero, pow_two]
    · exact_mod_cast Nat.mul_le_mul hd hd
    · rcases Nat.lt_or_ge 1 (labelDistance a b) with h | h
      · right; right
        have : 1 < labelDistance a b * labelDistance a b := by nlinarith
        exact_mod_cast this
      · interval_cases labelDistance a b <;> simp
    · nlinarith

/-- A table of the kind recognised: weight 2, cut at 3. -/
example : IsTruncatedAbsoluteTable (V := ℤ) 4 3 (fun c => match c with | [a, b] => Min.min (2 * |(a : ℤ) - b|) 3 | _ => 0) :=
  ⟨2, 3, by decide, by decide, fun _ _ _ _ => rfl⟩

end Difference

/-- C40 is violated: a truncated difference whose second variable has more labels is not recognised. -/
theorem C40_violated_isTruncated_complete : ¬ ∀ (f : Fun ℤ) (n1 n2 : Nat) (g : List Nat → ℤ), Denotes f [n1, n2] g → 2 ≤ n1 → 2 ≤ n2 →
    IsTruncatedAbsoluteTable n1 n2 g → isTruncatedAbsoluteDifference none f = some true := by
  intro h
  have := h _ 2 4 _ (arrayFun_denotes [2, 4] (fun c => match c with | [a, b] => Min.min (1 * |(a : ℤ) - b|) 2 | _ => 0)) (by decide) (by decide)
    ⟨1, 2, by decide, by decide, fun _ _ _ _ => rfl⟩
  revert this
  decide

/-- C40 is violated: a function that mixes the truncated and the plain value at the same distance is accepted. -/
theorem C40_violated_isTruncated_sound : ¬ ∀ (f : Fun ℤ) (n1 n2 : Nat) (g : List Nat → ℤ), Denotes f [n1, n2] g → 2 ≤ n1 → 2 ≤ n2 →
    isTruncatedAbsoluteDifference none f = some true → IsTruncatedAbsoluteTable n1 n2 g := by
  intro h
  obtain ⟨w, t, _, _, hg⟩ := h _ 4 4 _ (arrayFun_denotes [4, 4] (fun c => match c with
      | [a, b] => if a = 3 ∧ b = 1 then 3 else if labelDistance a b = 3 then 3 else 2 * (labelDistance a b : ℤ)
      | _ => 0)) (by decide) (by decide) (by decide)
  have e1 := hg 2 0 (by decide) (by decide)
  have e2 := hg 3 1 (by decide) (by decide)
  have e3 : |((2 : Nat) : ℤ) - ((0 : Nat) : ℤ)| = |((3 : Nat) : ℤ) - ((1 : Nat) : ℤ)| := by decide
  rw [e3, ← e2] at e1
  revert e1
  decide

/-! ### Submodularity -/

theorem inShape_22 {c : List Nat} : InShape [2, 2] c ↔ c = [0, 0] ∨ c = [0, 1] ∨ c = [1, 0] ∨ c = [1, 1] := by
  rw [inShape_two]
  constructor
  · rintro ⟨a, b, rfl, ha, hb⟩
    interval_cases a <;> interval_cases b <;> simp
  · rintro (rfl | rfl | rfl | rfl)
    · exact ⟨0, 0, rfl, by decide, by decide⟩
    · exact ⟨0, 1, rfl, by decide, by decide⟩
    · exact ⟨1, 0, rfl, by decide, by decide⟩
    · exact ⟨1, 1, rfl, by decide, by decide⟩

/-- C40, isSubmodular(): right for functions of one variable and of two binary variables; an exception otherwise. -/
theorem C40_isSubmodular {f : Fun V} {shape : List Nat} {g : List Nat → V} (hf : Denotes f shape g) :
    (shape.length = 1 ∨ shape = [2, 2] → ∃ r, isSubmodular f = .ok r () ∧ (r = true ↔ IsSubmodularTable shape g)) ∧
    (¬ (shape.length = 1 ∨ shape = [2, 2]) → isSubmodular f = .throw ()) := by
  constructor
  · rintro (h | rfl)
    · refine ⟨true, ?_, ?_⟩
      · unfold isSubmodular; rw [hf.shape_eq, if_pos h]
      · simp only [true_iff]
        match shape, h with
        | [n], _ =>
          intro c c' hc hc'
          match c, c', hc, hc' with
          | [a], [b], _, _ =>
            simp only [List.zipWith_cons_cons, List.zipWith_nil_left]
            rcases Nat.le_total a b with h | h
            · rw [Nat.min_eq_left h, Nat.max_eq_right h]
            · rw [Nat.min_eq_right h, Nat.max_eq_left h, add_comm]
    · refine ⟨decide (g [0, 0] + g [1, 1] ≤ g [1, 0] + g [0, 1]), ?_, ?_⟩
      · unfold isSubmodular
        rw [hf.shape_eq]
        simp only [hf.eval_eq [0, 0] (inShape_22.mpr (by simp)), hf.eval_eq [1, 1] (inShape_22.mpr (by simp)),
          hf.eval_eq [1, 0] (inShape_22.mpr (by simp)), hf.eval_eq [0, 1] (inShape_22.mpr (by simp))]
        rfl
      · rw [decide_eq_true_iff]
        constructor
        · intro h c c' hc hc'
          rw [inShape_22] at hc hc'
          have h' : g [0, 0] + g [1, 1] ≤ g [0, 1] + g [1, 0] := by rwa [add_comm (g [0, 1])]
          rcases hc with rfl | rfl | rfl | rfl <;> rcases hc' with rfl | rfl | rfl | rfl <;>
            simp only [List.zipWith_cons_cons, List.zipWith_nil_left, Nat.min_self, Nat.max_self] <;>
            first | exact le_refl _ | exact h | exact h' | (rw [add_comm]; exact le_refl _)
        · intro h
          exact h [1, 0] [0, 1] (inShape_22.mpr (by simp)) (inShape_22.mpr (by simp))
  · intro h
    unfold isSubmodular
    rw [hf.shape_eq, if_neg (fun h' => h (Or.inl h')), if_neg (fun h' => h (Or.inr h'))]

example : Denotes (arrayFun [2, 2] (fun c => if c = [0, 1] then (5 : ℤ) else 1)) [2, 2] (fun c => if c = [0, 1] then (5 : ℤ) else 1) :=
  arrayFun_denotes _ _

end Functions
end OpenGM
