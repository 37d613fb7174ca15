import Verif.Lemmas.Functions
/-
C37: the values functions report about themselves (minimum, maximum, sum, product, accumulation) against enumeration of all label tuples.
-/
namespace OpenGM
namespace Functions
open Walkers Spec FactorOps

variable {V : Type} [CommRing V] [LinearOrder V]

/-! ### What the function classes compute -/

theorem foldl_prod (shape : List Nat) : shape.foldl (· * ·) 1 = shape.prod := by
  rw [← List.prod_eq_foldl]

/-- A Potts function has one value for equal labels and another one for different labels. -/
theorem C37_potts_denotes (n1 n2 : Nat) (e n : V) :
    Denotes (Potts.toFun ⟨n1, n2, e, n⟩) [n1, n2] (fun c => if c[0]? = c[1]? then e else n) where
  shape_eq := rfl
  size_eq := by simp [Potts.toFun]
  eval_eq := by
    intro c hc
    obtain ⟨a, b, rfl, _, _⟩ := inShape_two.mp hc
    simp [Potts.toFun, Potts.eval]

theorem PottsN.evalLoop_spec (f : PottsN V) (tmp : Nat) (c : List Nat) : ∀ is : List Nat, (∀ i ∈ is, i < c.length) →
    ((∀ i ∈ is, c[i]? = some tmp) → f.evalLoop tmp c is = some f.valueEqual) ∧
    ((¬ ∀ i ∈ is, c[i]? = some tmp) → f.evalLoop tmp c is = some f.valueNotEqual)
  | [], _ => by simp [PottsN.evalLoop]
  | i :: is, h => by
    obtain ⟨h1, h2⟩ := PottsN.evalLoop_spec f tmp c is (fun i hi => h i (List.mem_cons_of_mem _ hi))
    have hi : i < c.length := h i (by simp)
    have hc : c[i]? = some c[i] := List.getElem?_eq_getElem hi
    unfold PottsN.evalLoop
    simp only [hc]
    by_cases ht : c[i] = tmp
    · rw [if_neg (by simp [ht])]
      refine ⟨fun h' => h1 (fun j hj => h' j (List.mem_cons_of_mem _ hj)), fun h' => h2 (fun h'' => h' ?_)⟩
      intro j hj
      rcases List.mem_cons.mp hj with rfl | hj
      · rw [hc, ht]
      · exact h'' j hj
    · rw [if_pos ht]
      refine ⟨fun h' => absurd (h' i (by simp)) ?_, fun _ => rfl⟩
      rw [hc]; simpa using ht

open scoped Classical in
/-- A PottsN function of order at least one has one value where all labels agree and another one elsewhere. -/
theorem C37_pottsN_denotes (shape : List Nat) (h : shape ≠ []) (e n : V) :
    Denotes (PottsN.mk' shape e n).toFun shape (fun c => if AllEqual c then e else n) where
  shape_eq := rfl
  size_eq := foldl_prod shape
  eval_eq := by
    intro c hc
    have hl := inShape_length hc
    have hpos : 0 < c.length := by rw [hl]; exact List.length_pos_of_ne_nil h
    simp only [PottsN.toFun, PottsN.eval, List.getElem?_eq_getElem hpos]
    obtain ⟨h1, h2⟩ := PottsN.evalLoop_spec (PottsN.mk' shape e n) c[0] c (List.range shape.length) (by simp [hl])
    have hiff : (∀ i ∈ List.range shape.length, c[i]? = some c[0]) ↔ AllEqual c := by
      constructor
      · intro h i j hi hj
        rw [h i (by simpa [← hl] using hi), h j (by simpa [← hl] using hj)]
      · intro h i hi
        rw [h i 0 (by simpa [hl] using hi) hpos, List.getElem?_eq_getElem hpos]
    simp only [PottsN.mk'] at h1 h2 ⊢
    by_cases ha : AllEqual c
    · rw [h1 (hiff.mpr ha), if_pos ha]
    · rw [h2 (fun h => ha (hiff.mp h)), if_neg ha]

/-- A constant function. -/
theorem C37_constant_denotes (shape : List Nat) (v : V) : Denotes (Constant.mk' shape v).toFun shape (fun _ => v) where
  shape_eq := rfl
  size_eq := foldl_prod shape
  eval_eq := by intros; rfl

/-- The difference functions: scale times the distance of the labels, times its square, and the truncations of the distance and
its square at the first parameter, times the second. -/
theorem C37_difference_denotes (n1 n2 : Nat) (s p1 p2 : V) :
    (∀ a b, Denotes (Difference.toFunAbs ⟨n1, n2, s⟩) [n1, n2] a ∧ Denotes (Difference.toFunSq ⟨n1, n2, s⟩) [n1, n2] b →
      ∀ x y, x < n1 → y < n2 → a [x, y] = s * |(x : V) - (y : V)| ∧ b [x, y] = s * ((x : V) - (y : V)) ^ 2) ∧
    (∀ a b, Denotes (Truncated.toFunAbs ⟨n1, n2, p1, p2⟩) [n1, n2] a ∧ Denotes (Truncated.toFunSq ⟨n1, n2, p1, p2⟩) [n1, n2] b →
      ∀ x y, x < n1 → y < n2 → a [x, y] = Min.min |(x : V) - (y : V)| p1 * p2 ∧ b [x, y] = Min.min (((x : V) - (y : V)) ^ 2) p1 * p2) ∧
    (∃ a b a' b' : List Nat → V, Denotes (Difference.toFunAbs ⟨n1, n2, s⟩) [n1, n2] a ∧ Denotes (Difference.toFunSq ⟨n1, n2, s⟩) [n1, n2] b ∧
      Denotes (Truncated.toFunAbs ⟨n1, n2, p1, p2⟩) [n1, n2] a' ∧ Denotes (Truncated.toFunSq ⟨n1, n2, p1, p2⟩) [n1, n2] b') := by
  have aux : ∀ (f : Fun V) (g : List Nat → V) (x y : Nat) (v : V), Denotes f [n1, n2] g → x < n1 → y < n2 → f.eval [x, y] = some v →
      g [x, y] = v := by
    intro f g x y v h hx hy he
    have := h.eval_eq [x, y] (inShape_two.mpr ⟨x, y, rfl, hx, hy⟩)
    rw [he] at this
    exact (Option.some.inj this).symm
  have hmin : ∀ d p : V, (if d > p then p * p2 else d * p2) = Min.min d p * p2 := by
    intro d p
    split
    · rename_i h; rw [min_eq_right h.le]
    · rename_i h; rw [min_eq_left (not_lt.mp h)]
  refine ⟨?_, ?_, ?_⟩
  · rintro a b ⟨ha, hb⟩ x y hx hy
    refine ⟨aux _ _ _ _ _ ha hx hy rfl, ?_⟩
    rw [aux _ _ _ _ _ hb hx hy rfl]
    ring
  · rintro a b ⟨ha, hb⟩ x y hx hy
    refine ⟨?_, ?_⟩
    · rw [aux _ _ _ _ _ ha hx hy rfl, ← hmin]
    · rw [aux _ _ _ _ _ hb hx hy rfl, ← hmin, pow_two]
  · refine ⟨fun c => (Difference.evalAbs ⟨n1, n2, s⟩ c).getD 0, fun c => (Difference.evalSq ⟨n1, n2, s⟩ c).getD 0,
      fun c => (Truncated.evalAbs ⟨n1, n2, p1, p2⟩ c).getD 0, fun c => (Truncated.evalSq ⟨n1, n2, p1, p2⟩ c).getD 0,
      ⟨rfl, ?_, ?_⟩, ⟨rfl, ?_, ?_⟩, ⟨rfl, ?_, ?_⟩, ⟨rfl, ?_, ?_⟩⟩
    any_goals simp [Difference.toFunAbs, Difference.toFunSq, Truncated.toFunAbs, Truncated.toFunSq]
    all_goals
      intro c hc
      obtain ⟨x, y, rfl, _, _⟩ := inShape_two.mp hc
      rfl

/-! ### The fallback implementations -/

/-- C37, every function without closed forms (shape without zeros): `min`, `max`, `minMax`, `sum`, `product` and `accumulate` are the
least and greatest value, the sum, the product and the left fold over all label tuples, each visited once. -/
theorem C37_fallback {f : Fun V} {shape : List Nat} {g : List Nat → V} (hp : Positive shape) (hf : Denotes f shape g) :
    (∃ m M, min f = some m ∧ max f = some M ∧ minMax f = some (m, M) ∧ accumulate f .minimizer = some m ∧ accumulate f .maximizer = some M ∧
      IsLeast (valueSet shape g) m ∧ IsGreatest (valueSet shape g) M) ∧
    sum f = some ((allTuples shape).map g).sum ∧ accumulate f .adder = sum f ∧ accumulate f .integrator = sum f ∧
    product f = some ((allTuples shape).map g).prod ∧ accumulate f .multiplier = product f ∧
    (∀ op neutral, accumulate f (.other op neutral) = some (((allTuples shape).map g).foldl (fun s v => op v s) neutral)) ∧
    (allTuples shape).Nodup ∧ (∀ c, c ∈ allTuples shape ↔ InShape shape c) := by
  obtain ⟨m, M, h1, h2, h3⟩ := minMax_spec hp hf
  obtain ⟨m', h4, h5⟩ := min_spec hp hf
  obtain ⟨M', h6, h7⟩ := max_spec hp hf
  have e1 : m' = m := h5.unique h2
  have e2 : M' = M := h7.unique h3
  subst e1 e2
  refine ⟨⟨m', M', h4, h6, h1, h4, h6, h2, h3⟩, sum_spec hp hf, rfl, rfl, product_spec hp hf, rfl, ?_, nodup_allTuples _, mem_allTuples _⟩
  intro op neutral
  show forAllValuesInOrder f (fun s _ v => op v s) neutral = _
  rw [forAll_spec hp hf, List.foldl_map]

/-- A function to which the fallback applies. -/
example : Denotes (V := ℤ) (Difference.toFunAbs ⟨3, 4, 2⟩) [3, 4] (fun c => (Difference.evalAbs ⟨3, 4, 2⟩ c).getD 0) ∧ Positive [3, 4] :=
  ⟨⟨rfl, by simp [Difference.toFunAbs], by
    intro c hc; obtain ⟨x, y, rfl, _, _⟩ := inShape_two.mp hc; rfl⟩, by simp [Positive]⟩

/-! ### Closed forms -/

/-- C37, constant functions: the closed forms are what enumeration gives. -/
theorem C37_constant {shape : List Nat} (hp : Positive shape) (v : V) :
    IsLeast (valueSet shape (fun _ => v)) (Constant.mk' shape v).min ∧ IsGreatest (valueSet shape (fun _ => v)) (Constant.mk' shape v).max ∧
    (Constant.mk' shape v).minMax = ((Constant.mk' shape v).min, (Constant.mk' shape v).max) ∧
    (Constant.mk' shape v).sum = ((allTuples shape).map (fun _ => v)).sum ∧
    (Constant.mk' shape v).product = ((allTuples shape).map (fun _ => v)).prod := by
  have h0 := zeros_inShape hp
  refine ⟨⟨⟨_, h0, rfl⟩, ?_⟩, ⟨⟨_, h0, rfl⟩, ?_⟩, rfl, ?_, ?_⟩
  · rintro _ ⟨_, _, rfl⟩; exact le_refl _
  · rintro _ ⟨_, _, rfl⟩; exact le_refl _
  · simp only [Constant.mk', Constant.sum, List.map_const', List.sum_replicate, length_allTuples, foldl_prod, nsmul_eq_mul]; ring
  · simp only [Constant.mk', Constant.product, List.map_const', List.prod_replicate, length_allTuples, foldl_prod]

example : Positive [2, 3, 4] := by simp [Positive]

/-- C37, Potts functions: sum and product are what enumeration gives, for all label counts. -/
theorem C37_potts_sum_product (n1 n2 : Nat) (e n : V) :
    Potts.sum ⟨n1, n2, e, n⟩ = ((allTuples [n1, n2]).map (fun c => if c[0]? = c[1]? then e else n)).sum ∧
    Potts.product ⟨n1, n2, e, n⟩ = ((allTuples [n1, n2]).map (fun c => if c[0]? = c[1]? then e else n)).prod := by
  constructor
  · rw [sum_ite (fun c : List Nat => c[0]? = c[1]?), count_pairs, length_allTuples]
    simp [Potts.sum]
  · rw [prod_ite (fun c : List Nat => c[0]? = c[1]?), count_pairs, length_allTuples]
    simp [Potts.product]

/-- C37, Potts functions, minimum and maximum: right as soon as one of the variables has two labels. -/
theorem C37_potts_minMax_partial {n1 n2 : Nat} (h1 : 0 < n1) (h2 : 0 < n2) (h : 2 ≤ n1 ∨ 2 ≤ n2) (e n : V) :
    IsLeast (valueSet [n1, n2] (fun c => if c[0]? = c[1]? then e else n)) (Potts.min ⟨n1, n2, e, n⟩) ∧
    IsGreatest (valueSet [n1, n2] (fun c => if c[0]? = c[1]? then e else n)) (Potts.max ⟨n1, n2, e, n⟩) ∧
    Potts.minMax ⟨n1, n2, e, n⟩ = (Potts.min ⟨n1, n2, e, n⟩, Potts.max ⟨n1, n2, e, n⟩) := by
  have he : e ∈ valueSet [n1, n2] (fun c => if c[0]? = c[1]? then e else n) :=
    ⟨[0, 0], inShape_two.mpr ⟨0, 0, rfl, h1, h2⟩, by simp⟩
  have hn : n ∈ valueSet [n1, n2] (fun c => if c[0]? = c[1]? then e else n) := by
    rcases h with h | h
    · exact ⟨[1, 0], inShape_two.mpr ⟨1, 0, rfl, h, h2⟩, by simp⟩
    · exact ⟨[0, 1], inShape_two.mpr ⟨0, 1, rfl, h1, h⟩, by simp⟩
  have hall : ∀ v ∈ valueSet [n1, n2] (fun c => if c[0]? = c[1]? then e else n), v = e ∨ v = n := by
    rintro v ⟨c, _, rfl⟩
    simp only
    split
    · exact Or.inl rfl
    · exact Or.inr rfl
  unfold Potts.min Potts.max Potts.minMax
  simp only
  rcases lt_or_ge e n with hl | hl
  · rw [if_pos hl, if_pos hl, if_pos hl]
    refine ⟨⟨he, ?_⟩, ⟨hn, ?_⟩, rfl⟩
    · intro v hv; rcases hall v hv with rfl | rfl
      · exact le_refl _
      · exact hl.le
    · intro v hv; rcases hall v hv with rfl | rfl
      · exact hl.le
      · exact le_refl _
  · rw [if_neg (not_lt.mpr hl), if_neg (not_lt.mpr hl), if_neg (not_lt.mpr hl)]
    refine ⟨⟨hn, ?_⟩, ⟨he, ?_⟩, rfl⟩
    · intro v hv; rcases hall v hv with rfl | rfl
      · exact hl
      · exact le_refl _
    · intro v hv; rcases hall v hv with rfl | rfl
      · exact le_refl _
      · exact hl

example : 0 < 1 ∧ 0 < 3 ∧ (2 ≤ 1 ∨ 2 ≤ 3) := by decide

/-- C37 is violated: with one label per variable the value for different labels does not occur, but `min()` reports it. -/
theorem C37_violated_potts : ¬ ∀ (n1 n2 : Nat) (e n : ℤ), 0 < n1 → 0 < n2 →
    IsLeast (valueSet [n1, n2] (fun c => if c[0]? = c[1]? then e else n)) (Potts.min ⟨n1, n2, e, n⟩) := by
  intro h
  obtain ⟨⟨c, hc, hv⟩, _⟩ := h 1 1 5 3 (by decide) (by decide)
  obtain ⟨a, b, rfl, ha, hb⟩ := inShape_two.mp hc
  have h1 : a = 0 := by omega
  have h2 : b = 0 := by omega
  subst h1 h2
  revert hv
  decide

end Functions
end OpenGM
