import Verif.Lemmas.FunctionStructure
import Mathlib.Tactic.IntervalCases
/-
The structure predicates of FunctionBase: tables of cases, difference functions, submodularity.
-/
namespace OpenGM
namespace Functions
open Walkers Spec FactorOps

variable {V : Type}

theorem pattern_pair {l : List Nat} {p : List (Nat × Nat × Bool)} {i j : Nat} {b : Bool} (h : pattern l p = true) (hm : (i, j, b) ∈ p) :
    (l[i]? = l[j]? ↔ b = true) := by
  unfold pattern at h
  have := List.all_eq_true.mp h _ hm
  revert this
  cases h1 : l[i]? with
  | none => simp
  | some x =>
    cases h2 : l[j]? with
    | none => simp
    | some y =>
      cases b <;> simp

/-- A case that speaks about all pairs determines the partition. -/
theorem same_of_pattern {n : Nat} {p : List (Nat × Nat × Bool)} (hp : ∀ i j, i < j → j < n → ∃ b, (i, j, b) ∈ p) {l l' : List Nat}
    (hl : l.length = n) (hl' : l'.length = n) (h : pattern l p = true) (h' : pattern l' p = true) : SamePartition l l' := by
  refine ⟨hl.trans hl'.symm, ?_⟩
  intro i j hi hj
  rcases lt_trichotomy i j with hij | rfl | hij
  · obtain ⟨b, hb⟩ := hp i j hij (by omega)
    rw [pattern_pair h hb, pattern_pair h' hb]
  · simp
  · obtain ⟨b, hb⟩ := hp j i hij (by omega)
    rw [eq_comm, pattern_pair h hb, eq_comm (a := l'[i]?), pattern_pair h' hb]

theorem complete2 : Complete 2 cases2 where
  covers := by
    intro l hl
    match l, hl with
    | [a, b], _ =>
      by_cases h : a = b <;> simp [cases2, pattern, h]
  same := by
    intro p hp l l' hl hl' h h'
    apply same_of_pattern (n := 2) _ hl hl' h h'
    intro i j hij hj
    simp only [cases2, List.mem_cons, List.not_mem_nil, or_false] at hp
    interval_cases j <;> interval_cases i <;> rcases hp with rfl | rfl <;> simp
  reference := by decide

theorem pattern3 (a b c : Nat) (x1 x2 x3 : Bool) :
    pattern [a, b, c] [(1, 2, x1), (0, 2, x2), (0, 1, x3)] = true ↔ (decide (b = c) = x1 ∧ decide (a = c) = x2 ∧ decide (a = b) = x3) := by
  simp [pattern]

theorem complete3 : Complete 3 cases3 where
  covers := by
    intro l hl
    match l, hl with
    | [a, b, c], _ =>
      simp only [cases3, List.mem_cons, List.not_mem_nil, or_false, exists_eq_or_imp, pattern3, exists_eq_left]
      by_cases h1 : b = c <;> by_cases h2 : a = c <;> by_cases h3 : a = b <;>
        first | omega | (simp [h1, h2, h3]; done) | (simp [h1, h2, h3]; omega)
  same := by
    intro p hp l l' hl hl' h h'
    apply same_of_pattern (n := 3) _ hl hl' h h'
    intro i j hij hj
    simp only [cases3, List.mem_cons, List.not_mem_nil, or_false] at hp
    interval_cases j <;> interval_cases i <;> rcases hp with rfl | rfl | rfl | rfl | rfl <;> simp
  reference := by decide

theorem pattern4 (a b c d : Nat) (x1 x2 x3 x4 x5 x6 : Bool) :
    pattern [a, b, c, d] (pat4 x1 x2 x3 x4 x5 x6) = true ↔
      (decide (c = d) = x1 ∧ decide (b = d) = x2 ∧ decide (a = d) = x3 ∧ decide (b = c) = x4 ∧ decide (a = c) = x5 ∧ decide (a = b) = x6) := by
  simp [pattern, pat4]

theorem complete4 : Complete 4 cases4 where
  covers := by
    intro l hl
    match l, hl with
    | [a, b, c, d], _ =>
      simp only [cases4, List.mem_cons, List.not_mem_nil, or_false, exists_eq_or_imp, pattern4, exists_eq_left]
      by_cases h1 : c = d <;> by_cases h2 : b = d <;> by_cases h3 : a = d <;> by_cases h4 : b = c <;> by_cases h5 : a = c <;>
        by_cases h6 : a = b <;> first | omega | (simp [h1, h2, h3, h4, h5, h6]; done) | (simp [h1, h2, h3, h4, h5, h6]; omega)
  same := by
    intro p hp l l' hl hl' h h'
    apply same_of_pattern (n := 4) _ hl hl' h h'
    intro i j hij hj
    have : ∃ x1 x2 x3 x4 x5 x6, p.1 = pat4 x1 x2 x3 x4 x5 x6 := by
      simp only [cases4, List.mem_cons, List.not_mem_nil, or_false] at hp
      rcases hp with rfl | rfl | rfl | rfl | rfl | rfl | rfl | rfl | rfl | rfl | rfl | rfl | rfl | rfl | rfl <;>
        exact ⟨_, _, _, _, _, _, rfl⟩
    obtain ⟨x1, x2, x3, x4, x5, x6, hx⟩ := this
    rw [hx]
    interval_cases j <;> interval_cases i <;> simp [pat4]
  reference := by decide

theorem isGeneralizedPotts_spec [CommRing V] [LinearOrder V] {f : Fun V} {shape : List Nat} {g : List Nat → V} (hf : Denotes f shape g)
    (hd : shape.length = 2 ∨ shape.length = 3 ∨ shape.length = 4) (hs : ∀ m ∈ shape, shape.length ≤ m) :
    ∃ r, isGeneralizedPotts f = some r ∧ (r = true ↔ IsGeneralizedPottsTable shape g) := by
  unfold isGeneralizedPotts
  rw [hf.shape_eq]
  rcases hd with h | h | h
  · rw [if_pos h]; exact generalizedPottsOf_spec hf (by rw [h]; exact complete2) hs
  · rw [if_neg (by omega), if_pos h]; exact generalizedPottsOf_spec hf (by rw [h]; exact complete3) hs
  · rw [if_neg (by omega), if_neg (by omega), if_pos h]; exact generalizedPottsOf_spec hf (by rw [h]; exact complete4) hs

/-! ### Difference functions -/

section Ordered
variable [CommRing V] [LinearOrder V] [IsStrictOrderedRing V]

theorem labelDistance_cast (a b : Nat) : ((labelDistance a b : Nat) : V) = |(a : V) - (b : V)| := by
  unfold labelDistance
  split
  · rename_i h
    rw [abs_sub_comm, abs_of_nonneg (sub_nonneg.mpr (by exact_mod_cast h.le)), Nat.cast_sub h.le]
  · rename_i h
    rw [abs_of_nonneg (sub_nonneg.mpr (by exact_mod_cast (not_lt.mp h))), Nat.cast_sub (not_lt.mp h)]

theorem labelDistance_sq (a b : Nat) : ((labelDistance a b : Nat) : V) * ((labelDistance a b : Nat) : V) = ((a : V) - (b : V)) ^ 2 := by
  rw [labelDistance_cast, abs_mul_abs_self]; ring

omit [IsStrictOrderedRing V] in
theorem loops2 {n1 n2 : Nat} (check : Nat → Nat → Option Bool) (b : Nat → Nat → Bool)
    (h : ∀ c0 c1, c0 < n1 → c1 < n2 → check c0 c1 = some (b c0 c1)) :
    ∃ r, allM (fun c1 => allM (fun c0 => check c0 c1) (List.range n1)) (List.range n2) = some r ∧
      (r = true ↔ ∀ c0 c1, c0 < n1 → c1 < n2 → b c0 c1 = true) := by
  rw [allM_spec _ (fun c1 => (List.range n1).all (fun c0 => b c0 c1))]
  · refine ⟨_, rfl, ?_⟩
    simp only [List.all_eq_true, List.mem_range]
    exact ⟨fun h c0 c1 h0 h1 => h c1 h1 c0 h0, fun h c1 h1 c0 h0 => h c0 c1 h0 h1⟩
  · intro c1 h1
    rw [allM_spec _ (fun c0 => b c0 c1)]
    intro c0 h0
    exact h c0 c1 (List.mem_range.mp h0) (List.mem_range.mp h1)

theorem isDifference_spec {tol : Option V} {d : Nat → V} {f : Fun V} {n1 n2 : Nat} {g : List Nat → V} (hf : Denotes f [n1, n2] g)
    (h1 : 2 ≤ n1) (h2 : 1 ≤ n2) :
    ∃ r, isDifference tol d f = some r ∧ (r = true ↔ ∀ a b, a < n1 → b < n2 → Near tol (g [a, b]) (d (labelDistance a b) * g [1, 0])) := by
  unfold isDifference
  rw [hf.shape_eq]
  simp only
  rw [hf.eval_eq [1, 0] (inShape_two.mpr ⟨1, 0, rfl, by omega, by omega⟩)]
  simp only
  obtain ⟨r, hr1, hr2⟩ := loops2 (n1 := n1) (n2 := n2) (fun c0 c1 => match f.eval [c0, c1] with
        | none => none
        | some x => some (isNumericEqual tol x (d (labelDistance c0 c1) * g [1, 0])))
      (fun c0 c1 => isNumericEqual tol (g [c0, c1]) (d (labelDistance c0 c1) * g [1, 0])) (by
        intro c0 c1 h0 h1
        simp only [hf.eval_eq [c0, c1] (inShape_two.mpr ⟨c0, c1, rfl, h0, h1⟩)])
  refine ⟨r, hr1, hr2.trans ?_⟩
  simp only [near_iff]

theorem isTruncatedDifference_spec {tol : Option V} {d : Nat → V} {f : Fun V} {n1 n2 : Nat} {g : List Nat → V} (hf : Denotes f [n1, n2] g)
    (h1 : 2 ≤ n1) (h2 : 1 ≤ n2) :
    ∃ r, isTruncatedDifference tol d f = some r ∧ (r = true ↔ ∀ a b, a < n1 → b < n2 →
      (Near tol (g [a, b]) (d (labelDistance a b) * g [1, 0]) ∨
        (Near tol (g [a, b]) (g [n1 - 1, 0]) ∧ g [n1 - 1, 0] < d (labelDistance a b) * g [1, 0]))) := by
  unfold isTruncatedDifference
  rw [hf.shape_eq]
  simp only
  rw [hf.eval_eq [1, 0] (inShape_two.mpr ⟨1, 0, rfl, by omega, by omega⟩),
    hf.eval_eq [n1 - 1, 0] (inShape_two.mpr ⟨n1 - 1, 0, rfl, by omega, by omega⟩)]
  simp only
  obtain ⟨r, hr1, hr2⟩ := loops2 (n1 := n1) (n2 := n2) (fun c0 c1 => match f.eval [c0, c1] with
        | none => none
        | some fval => some (!((!isNumericEqual tol fval (d (labelDistance c0 c1) * g [1, 0])) && !(isNumericEqual tol fval (g [n1 - 1, 0])
            && decide (g [n1 - 1, 0] < d (labelDistance c0 c1) * g [1, 0])))))
      (fun c0 c1 => !((!isNumericEqual tol (g [c0, c1]) (d (labelDistance c0 c1) * g [1, 0])) && !(isNumericEqual tol (g [c0, c1]) (g [n1 - 1, 0])
            && decide (g [n1 - 1, 0] < d (labelDistance c0 c1) * g [1, 0])))) (by
        intro c0 c1 h0 h1
        simp only [hf.eval_eq [c0, c1] (inShape_two.mpr ⟨c0, c1, rfl, h0, h1⟩)])
  refine ⟨r, hr1, hr2.trans ?_⟩
  simp only [← near_iff]
  refine forall_congr' fun a => forall_congr' fun b => forall_congr' fun _ => forall_congr' fun _ => ?_
  cases isNumericEqual tol (g [a, b]) (d (labelDistance a b) * g [1, 0]) <;>
    cases isNumericEqual tol (g [a, b]) (g [n1 - 1, 0]) <;> simp

end Ordered

end Functions
end OpenGM
