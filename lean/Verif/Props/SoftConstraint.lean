import Verif.Lemmas.SoftConstraint
/-
C79: soft constraint functions: label costs and penalties of linear equalities have the documented values, and can be written and read.
-/
namespace OpenGM.SoftConstraint
open Spec Learnable

/-! ### Shape -/

/-- C79: a function made from a shape reports this shape, and its number of entries if that is below `2 ^ 31`. -/
theorem C79_shape_partial (shape : List Nat) :
    (Base.ofShape shape).numVariables = shape.length ∧ (∀ i, i < shape.length → (Base.ofShape shape).shapeAt i = shape[i]?) ∧
      (shape.prod < 2 ^ 31 → (Base.ofShape shape).size = shape.prod) :=
  ⟨rfl, (describes_ofShape shape).shapeAt, fun h => accumulateSize_small h⟩

/-- C79: a function made for `n` variables with `k` labels each reports this shape, and its number of entries modulo the word size. -/
theorem C79_shape_counts (n k : Nat) :
    ∃ b, Base.ofCounts n k = some b ∧ b.numVariables = n ∧ (∀ i, i < n → b.shapeAt i = some k) ∧ b.size = k ^ n % 2 ^ 64 :=
  ⟨_, ofCounts_eq n k, rfl, fun _ _ => rfl, rfl⟩

example : (Base.ofShape [3, 2, 4]).size = 24 ∧ (Base.ofShape [3, 2, 4]).shapeAt 1 = some 2 := by decide

/-- C79: the number of entries of a function of 32 variables with two labels each, made from its shape, is reported as zero: the product is computed in an
`int`, the type of the start value `1` of `std::accumulate`. The constructor that takes the two numbers reports `2 ^ 32`. -/
theorem C79_violated_size : (Base.ofShape (List.replicate 32 2)).size = 0 ∧ (List.replicate 32 2).prod = 2 ^ 32 ∧
    (Base.ofCounts 32 2).map Base.size = some (2 ^ 32) := by decide +kernel

/-! ### LabelCostFunction -/

section
variable {V : Type} [CommRing V]

namespace LabelCost

/-- The functions the four constructors make, under the conditions their assertions state, with the shape and the cost of every label. -/
inductive Built : LabelCost V → List Nat → (Nat → V) → Prop
  | shapeCosts (shape : List Nat) (costs : List V) (h : ∀ s ∈ shape, s ≤ costs.length) :
      Built (ofShapeCosts shape costs) shape (fun l => costs.getD l 0)
  | shapeSingle (shape : List Nat) (label : Nat) (cost : V) (h : ∃ s ∈ shape, label < s) :
      Built (ofShapeSingle shape label cost) shape (fun l => if l = label then cost else 0)
  | countsCosts (n k : Nat) (costs : List V) (h : k ≤ costs.length) (f : LabelCost V) (hf : ofCountsCosts n k costs = some f) :
      Built f (List.replicate n k) (fun l => costs.getD l 0)
  | countsSingle (n k label : Nat) (cost : V) (h : label < k) (f : LabelCost V) (hf : ofCountsSingle n k label cost = some f) :
      Built f (List.replicate n k) (fun l => if l = label then cost else 0)

theorem eval_costs {f : LabelCost V} {shape : List Nat} (hd : Describes f.base shape) (hs : f.useSingle = false)
    (hc : f.base.maxNumLabels ≤ f.costs.length) (x rest : List Nat) (hx : InShape shape x) :
    f.eval (x ++ rest) = some (labelCosts (fun l => f.costs.getD l 0) x) := by
  unfold eval
  rw [hs, if_neg (by simp), hd.numVariables, ← inShape_length hx]
  have h := loop_spec f.base.maxNumLabels f.costs hc rest x (List.replicate f.base.maxNumLabels false) 0 ∅ (inShape_lt hx hd.bound)
    (by intro l hl; simp [hl]) (by simp)
  rw [Finset.card_empty] at h
  rw [h]
  simp [labelCosts]

theorem eval_single {f : LabelCost V} {shape : List Nat} (hd : Describes f.base shape) (hs : f.useSingle = true) (x rest : List Nat)
    (hx : InShape shape x) : f.eval (x ++ rest) = some (labelCosts (fun l => if l = f.singleLabel then f.singleCost else 0) x) := by
  unfold eval
  rw [if_pos hs, hd.numVariables, ← inShape_length hx, finds_spec]
  unfold labelCosts
  rw [Finset.sum_ite_eq']
  by_cases h : f.singleLabel ∈ x <;> simp [h]

/-- C79: the value of a label cost function at a labeling is the sum of the costs of the labels that are used, each counted once. -/
theorem C79_labelCost {f : LabelCost V} {shape : List Nat} {cost : Nat → V} (h : Built f shape cost) (x rest : List Nat) (hx : InShape shape x) :
    f.eval (x ++ rest) = some (labelCosts cost x) := by
  rcases h with ⟨_, costs, h⟩ | ⟨_, label, cost, h⟩ | ⟨n, k, costs, h, f, hf⟩ | ⟨n, k, label, cost, h, f, hf⟩
  · refine eval_costs (describes_ofShape shape) rfl ?_ x rest hx
    cases shape with
    | nil => exact Nat.zero_le _
    | cons s l => exact h _ (maxElement_mem (by simp))
  · exact eval_single (describes_ofShape shape) rfl x rest hx
  · unfold ofCountsCosts at hf
    rw [ofCounts_eq] at hf
    cases hf
    exact eval_costs (f := { base := _, costs := costs, useSingle := false, singleLabel := 0, singleCost := 0 })
      (describes_ofCounts (ofCounts_eq n k)) rfl h x rest hx
  · unfold ofCountsSingle at hf
    rw [ofCounts_eq] at hf
    cases hf
    exact eval_single (f := { base := _, costs := [], useSingle := true, singleLabel := label, singleCost := cost })
      (describes_ofCounts (ofCounts_eq n k)) rfl x rest hx

example : (ofShapeCosts [3, 2, 3] [(5 : Int), 7, 11]).eval [2, 0, 2] = some 16 := by decide
example : Built (ofShapeCosts [3, 2, 3] [(5 : Int), 7, 11]) [3, 2, 3] (fun l => [(5 : Int), 7, 11].getD l 0) ∧ InShape [3, 2, 3] [2, 0, 2] :=
  ⟨.shapeCosts _ _ (by decide), by simp [InShape]⟩
example : Built (ofShapeSingle [3, 2, 3] 2 (5 : Int)) [3, 2, 3] (fun l => if l = 2 then 5 else 0) := .shapeSingle _ _ _ (by decide)

/-- Two functions that cannot be told apart by their values, dimension and shape. -/
def Same (f g : LabelCost V) (shape : List Nat) : Prop :=
  g.base.numVariables = f.base.numVariables ∧ (∀ i, i < shape.length → g.base.shapeAt i = f.base.shapeAt i) ∧
    ∀ x rest, InShape shape x → g.eval (x ++ rest) = f.eval (x ++ rest)

theorem Built.base {f : LabelCost V} {shape : List Nat} {cost : Nat → V} (h : Built f shape cost) :
    f.base = Base.ofShape shape ∨ ∃ n k, shape = List.replicate n k ∧ Base.ofCounts n k = some f.base := by
  rcases h with ⟨_, costs, h⟩ | ⟨_, label, cost, h⟩ | ⟨n, k, costs, h, f, hf⟩ | ⟨n, k, label, cost, h, f, hf⟩
  · exact Or.inl rfl
  · exact Or.inl rfl
  · refine Or.inr ⟨n, k, rfl, ?_⟩
    unfold ofCountsCosts at hf
    rw [ofCounts_eq] at hf ⊢
    cases hf
    rfl
  · refine Or.inr ⟨n, k, rfl, ?_⟩
    unfold ofCountsSingle at hf
    rw [ofCounts_eq] at hf ⊢
    cases hf
    rfl

theorem base_describes {b : Base} {shape : List Nat} (h : b = Base.ofShape shape ∨ ∃ n k, shape = List.replicate n k ∧ Base.ofCounts n k = some b) :
    Describes b shape := by
  rcases h with rfl | ⟨n, k, rfl, h⟩
  · exact describes_ofShape shape
  · exact describes_ofCounts h

theorem base_small {b : Base} {shape : List Nat} (h : b = Base.ofShape shape ∨ ∃ n k, shape = List.replicate n k ∧ Base.ofCounts n k = some b)
    (hs : shape.prod < 2 ^ 31) : b.size = shape.prod := by
  rcases h with rfl | ⟨n, k, rfl, h⟩
  · exact accumulateSize_small hs
  · rw [ofCounts_eq] at h
    cases h
    rw [List.prod_replicate] at hs ⊢
    exact Nat.mod_eq_of_lt (by omega)

/-- The members of a function that is made from a description of the shape, when all numbers of labels are the same. -/
theorem base_same {b : Base} {shape : List Nat} (hd : Describes b shape) (hs : b.same = true) :
    Base.ofCounts b.numVariables b.maxNumLabels = some { b with shape := [], size := b.maxNumLabels ^ b.numVariables % 2 ^ 64 } := by
  rw [ofCounts_eq, hs]

theorem base_full {b : Base} {shape : List Nat} (h : b = Base.ofShape shape ∨ ∃ n k, shape = List.replicate n k ∧ Base.ofCounts n k = some b)
    (hs : b.same = false) : Base.ofShape shape = b := by
  rcases h with rfl | ⟨n, k, rfl, h⟩
  · rfl
  · rw [ofCounts_eq] at h
    cases h
    simp at hs

/-- C79: a label cost function can be written and read. The sizes are those of the sequences, and the function that is read has the same dimension, shape
and values, and the same number of entries if that is below `2 ^ 31`. -/
theorem C79_labelCost_roundtrip_partial {f : LabelCost V} {shape : List Nat} {cost : Nat → V} (h : Built f shape cost) :
    ∃ ix vs, f.serialize = some (ix, vs) ∧ f.sizes = (ix.length, vs.length) ∧
      ∀ rest rest', ∃ g, deserialize (ix ++ rest) (vs ++ rest') = some g ∧ Same f g shape ∧ (shape.prod < 2 ^ 31 → g.base.size = f.base.size) := by
  have hb := h.base
  have hd := base_describes hb
  have hmembers : (f.useSingle = true ∧ f.costs = []) ∨ (f.useSingle = false ∧ f.singleLabel = 0 ∧ f.singleCost = 0) := by
    rcases h with ⟨_, costs, h⟩ | ⟨_, label, cost, h⟩ | ⟨n, k, costs, h, f, hf⟩ | ⟨n, k, label, cost, h, f, hf⟩
    · exact Or.inr ⟨rfl, rfl, rfl⟩
    · exact Or.inl ⟨rfl, rfl⟩
    · unfold ofCountsCosts at hf
      rw [ofCounts_eq] at hf
      cases hf
      exact Or.inr ⟨rfl, rfl, rfl⟩
    · unfold ofCountsSingle at hf
      rw [ofCounts_eq] at hf
      cases hf
      exact Or.inl ⟨rfl, rfl⟩
  obtain ⟨b, costs, useSingle, singleLabel, singleCost⟩ := f
  simp only at hb hd hmembers
  have hevalSame : ∀ sz : Nat, Same (⟨b, costs, useSingle, singleLabel, singleCost⟩ : LabelCost V)
      ⟨{ b with shape := [], size := sz }, costs, useSingle, singleLabel, singleCost⟩ shape ∨ b.same = false := by
    intro sz
    by_cases hs : b.same = true
    · refine Or.inl ⟨rfl, ?_, fun _ _ _ => rfl⟩
      intro i _
      simp [Base.shapeAt, hs]
    · exact Or.inr (by simpa using hs)
  have hsize : b.same = true → shape.prod < 2 ^ 31 → b.maxNumLabels ^ b.numVariables % 2 ^ 64 = b.size := by
    intro hs hp
    rw [base_small hb hp]
    have e := hd.same hs
    rw [hd.numVariables]
    have e' : shape.prod = b.maxNumLabels ^ shape.length := by conv_lhs => rw [e, List.prod_replicate]
    rw [e']
    rw [e'] at hp
    exact Nat.mod_eq_of_lt (by omega)
  by_cases hs : b.same = true
  · have hbase := base_same hd hs
    rcases hmembers with ⟨hu, hc⟩ | ⟨hu, hl, hc⟩
    · subst hu hc
      refine ⟨_, _, by simp only [serialize, hs, if_true]; rfl, by simp [sizes, hs], ?_⟩
      intro rest rest'
      refine ⟨_, by
        simp only [deserialize, List.cons_append, List.nil_append, if_true, readN, Option.map_some, List.getElem?_cons_zero, ofCountsSingle, hbase], (hevalSame _).resolve_right (by simp [hs]), fun hp => hsize hs hp⟩
    · subst hu hl hc
      refine ⟨_, _, by simp only [serialize, hs, if_true]; rfl, by simp [sizes, hs], ?_⟩
      intro rest rest'
      refine ⟨_, by
        simp only [deserialize, List.cons_append, List.nil_append, if_true, readN, Option.map_some, List.getElem?_cons_zero, ofCountsCosts, hbase,
          Bool.false_eq_true, if_false, zero_ne_one, readN_append], (hevalSame _).resolve_right (by simp [hs]), fun hp => hsize hs hp⟩
  · have hs' : b.same = false := by simpa using hs
    obtain ⟨e1, e2⟩ := hd.full hs'
    have hfull := base_full hb hs'
    have hread : readAll b.shape b.numVariables = some shape := by rw [hd.numVariables, e1, readAll_length]
    have hlen := hd.numVariables
    rcases hmembers with ⟨hu, hc⟩ | ⟨hu, hl, hc⟩
    · subst hu hc
      refine ⟨_, _, by simp only [serialize, hs', Bool.false_eq_true, if_false, if_true, hread]; rfl, by simp [sizes, hs', hlen]; omega, ?_⟩
      intro rest rest'
      refine ⟨_, by
        simp only [deserialize, List.cons_append, List.nil_append, List.append_assoc, if_false, zero_ne_one, readN_append' shape _ hlen.symm, if_true,
          List.getElem?_cons_zero, ofShapeSingle, hfull], ⟨rfl, fun _ _ => rfl, fun _ _ _ => rfl⟩, fun _ => rfl⟩
    · subst hu hl hc
      refine ⟨_, _, by simp only [serialize, hs', Bool.false_eq_true, if_false, hread]; rfl, by simp [sizes, hs', hlen]; omega, ?_⟩
      intro rest rest'
      refine ⟨_, by
        simp only [deserialize, List.cons_append, List.nil_append, List.append_assoc, if_false, zero_ne_one, readN_append' shape _ hlen.symm,
          readN_append, ofShapeCosts, hfull], ⟨rfl, fun _ _ => rfl, fun _ _ _ => rfl⟩, fun _ => rfl⟩

example : (ofShapeCosts [3, 2, 3] [(5 : Int), 7, 11]).serialize = some ([3, 0, 3, 2, 3, 0, 3], [5, 7, 11]) := by decide
example : (ofShapeSingle [3, 3] 2 (5 : Int)).serialize = some ([2, 1, 3, 1, 2], [5]) := by decide

/-- C79: writing and reading a function with 32 variables of two labels that was made from its shape changes the number of entries it reports from zero to
`2 ^ 32`. -/
theorem C79_violated_roundtrip_size : ∃ f : LabelCost Int, Built f (List.replicate 32 2) (fun l => if l = 1 then 5 else 0) ∧
    ∃ ix vs, f.serialize = some (ix, vs) ∧ f.base.size = 0 ∧ (deserialize ix vs).map (fun g => g.base.size) = some (2 ^ 32) :=
  ⟨ofShapeSingle (List.replicate 32 2) 1 5, .shapeSingle _ _ _ ⟨2, by simp, by omega⟩, _, _, rfl, by decide +kernel, by decide +kernel⟩

end LabelCost

/-! ### SumConstraintFunction -/

namespace SumConstraint

/-- The functions the two constructors make, under the conditions their assertions state, with the shape, one list of coefficients for each variable,
lambda and the bound. -/
inductive Built : SumConstraint V → List Nat → List (List V) → V → V → Prop
  | shapeShared (shape : List Nat) (c : List V) (lambda bound : V) (h : ∀ s ∈ shape, s ≤ c.length) :
      Built (ofShape shape c true lambda bound) shape (List.replicate shape.length c) lambda bound
  | shapeOwn (c : List (List V)) (lambda bound : V) :
      Built (ofShape (c.map List.length) c.flatten false lambda bound) (c.map List.length) c lambda bound
  | countsShared (n k : Nat) (c : List V) (lambda bound : V) (h : k = c.length) (f : SumConstraint V)
      (hf : ofCounts n k c true lambda bound = some f) : Built f (List.replicate n k) (List.replicate n c) lambda bound
  | countsOwn (n k : Nat) (c : List (List V)) (lambda bound : V) (hn : c.length = n) (hk : ∀ t ∈ c, t.length = k) (f : SumConstraint V)
      (hf : ofCounts n k c.flatten false lambda bound = some f) : Built f (List.replicate n k) c lambda bound

theorem zipWith_replicate (c : List V) : ∀ x : List Nat,
    List.zipWith (fun t l => t.getD l 0) (List.replicate x.length c) x = x.map (fun l => c.getD l 0)
  | [] => rfl
  | a :: x => by
    have := zipWith_replicate c x
    simp only [List.length_cons, List.replicate_succ, List.zipWith_cons_cons, List.map_cons, this]

variable [LinearOrder V] [IsStrictOrderedRing V]

theorem abs_of (r : V) : (if r < 0 then -r else r) = |r| := by
  split
  · rename_i h; exact (abs_of_neg h).symm
  · rename_i h; exact (abs_of_nonneg (not_lt.mp h)).symm

theorem eval_shared {f : SumConstraint V} {shape : List Nat} (hd : Describes f.base shape) (hs : f.share = true)
    (hc : ∀ s ∈ shape, s ≤ f.coefficients.length) (x rest : List Nat) (hx : InShape shape x) :
    f.eval (x ++ rest) = some (equalityPenalty (List.replicate shape.length f.coefficients) f.bound f.lambda x) := by
  unfold eval equalityPenalty
  rw [if_pos hs, hd.numVariables, ← inShape_length hx, sharedLoop_spec _ _ _ _ (inShape_lt hx hc), zipWith_replicate]
  simp only [abs_of, neg_add_eq_sub]

theorem eval_own {f : SumConstraint V} {c : List (List V)} (hd : Describes f.base (c.map List.length)) (hs : f.share = false)
    (hf : f.coefficients = c.flatten) (ho : f.offsets = offsetsOf 0 (c.map List.length)) (x rest : List Nat) (hx : InShape (c.map List.length) x) :
    f.eval (x ++ rest) = some (equalityPenalty c f.bound f.lambda x) := by
  unfold eval equalityPenalty
  have h := ownLoop_spec rest f.offsets c x [] [] 0 (-f.bound) hx (by
    intro j hj
    rw [ho, Nat.zero_add, offsetsOf_get _ _ _ (by simpa using hj)]
    rfl)
  simp only [List.nil_append, List.append_nil] at h
  rw [hs, if_neg (by simp), hd.numVariables, ← inShape_length hx, hf, h]
  simp only [abs_of, neg_add_eq_sub]

theorem map_length_eq {c : List (List V)} {k : Nat} (hk : ∀ t ∈ c, t.length = k) : c.map List.length = List.replicate c.length k := by
  apply List.eq_replicate_iff.mpr ⟨by simp, ?_⟩
  intro b hb
  obtain ⟨t, ht, rfl⟩ := List.mem_map.mp hb
  exact hk t ht

/-- C79: the value of a sum constraint function at a labeling is lambda times the absolute difference of the sum of the coefficients of the labels and the
bound. -/
theorem C79_sumConstraint {f : SumConstraint V} {shape : List Nat} {c : List (List V)} {lambda bound : V} (h : Built f shape c lambda bound)
    (x rest : List Nat) (hx : InShape shape x) : f.eval (x ++ rest) = some (equalityPenalty c bound lambda x) := by
  rcases h with ⟨_, c, _, _, h⟩ | ⟨_, _, _⟩ | ⟨n, k, c, _, _, h, f, hf⟩ | ⟨n, k, _, _, _, hn, hk, f, hf⟩
  · exact eval_shared (f := ofShape shape c true lambda bound) (describes_ofShape shape) rfl h x rest hx
  · exact eval_own (f := ofShape _ _ false lambda bound) (describes_ofShape _) rfl rfl rfl x rest hx
  · unfold ofCounts at hf
    rw [ofCounts_eq] at hf
    cases hf
    have := eval_shared (f := { base := _, coefficients := c, share := true, offsets := [], lambda := lambda, bound := bound })
      (describes_ofCounts (ofCounts_eq n k)) rfl (by intro s hs; rw [(List.mem_replicate.mp hs).2]; exact h.le) x rest hx
    rw [List.length_replicate] at this
    exact this
  · unfold ofCounts at hf
    rw [ofCounts_eq] at hf
    cases hf
    have e := map_length_eq hk
    rw [hn] at e
    exact eval_own (f := { base := _, coefficients := c.flatten, share := false, offsets := offsetsOf 0 (List.replicate n k), lambda := lambda,
                           bound := bound })
      (by rw [e]; exact describes_ofCounts (ofCounts_eq n k)) rfl rfl (by rw [e]) x rest (by rw [e]; exact hx)

example : (ofShape [2, 3] [(1 : Int), 2, 10, 20, 30] false 7 25).eval [1, 0] = some 91 := by decide
example : Built (ofShape [2, 3] [(1 : Int), 2, 10, 20, 30] false 7 25) [2, 3] [[1, 2], [10, 20, 30]] 7 25 := .shapeOwn [[1, 2], [10, 20, 30]] 7 25
example : Built (ofShape [2, 3] [(1 : Int), 2, 10] true 7 25) [2, 3] [[1, 2, 10], [1, 2, 10]] 7 25 := .shapeShared [2, 3] [1, 2, 10] 7 25 (by decide)

/-- C79: the value is zero exactly if the equality holds, unless lambda is zero. -/
theorem C79_sumConstraint_zero {f : SumConstraint V} {shape : List Nat} {c : List (List V)} {lambda bound : V} (h : Built f shape c lambda bound)
    (hl : lambda ≠ 0) (x rest : List Nat) (hx : InShape shape x) :
    f.eval (x ++ rest) = some 0 ↔ (List.zipWith (fun t l => t.getD l 0) c x).sum = bound := by
  rw [C79_sumConstraint h x rest hx, Option.some_inj, equalityPenalty, mul_eq_zero, or_iff_left hl, abs_eq_zero, sub_eq_zero]

/-- Two functions that cannot be told apart by their values, dimension and shape. -/
def Same (f g : SumConstraint V) (shape : List Nat) : Prop :=
  g.base.numVariables = f.base.numVariables ∧ (∀ i, i < shape.length → g.base.shapeAt i = f.base.shapeAt i) ∧
    ∀ x rest, InShape shape x → g.eval (x ++ rest) = f.eval (x ++ rest)

omit [LinearOrder V] [IsStrictOrderedRing V] in
theorem Built.members {f : SumConstraint V} {shape : List Nat} {c : List (List V)} {lambda bound : V} (h : Built f shape c lambda bound) :
    (f.base = Base.ofShape shape ∨ ∃ n k, shape = List.replicate n k ∧ Base.ofCounts n k = some f.base) ∧
      f.offsets = if f.share then [] else offsetsOf 0 shape := by
  rcases h with ⟨_, c, _, _, h⟩ | ⟨_, _, _⟩ | ⟨n, k, c, _, _, h, f, hf⟩ | ⟨n, k, _, _, _, hn, hk, f, hf⟩
  · exact ⟨Or.inl rfl, rfl⟩
  · exact ⟨Or.inl rfl, rfl⟩
  · unfold ofCounts at hf
    rw [ofCounts_eq] at hf
    cases hf
    exact ⟨Or.inr ⟨n, k, rfl, ofCounts_eq n k⟩, rfl⟩
  · unfold ofCounts at hf
    rw [ofCounts_eq] at hf
    cases hf
    exact ⟨Or.inr ⟨n, k, rfl, ofCounts_eq n k⟩, rfl⟩

/-- C79: a sum constraint function can be written and read. The sizes are those of the sequences, and the function that is read has the same dimension,
shape and values, and the same number of entries if that is below `2 ^ 31`. -/
theorem C79_sumConstraint_roundtrip_partial {f : SumConstraint V} {shape : List Nat} {c : List (List V)} {lambda bound : V}
    (h : Built f shape c lambda bound) :
    f.sizes = (f.serialize.1.length, f.serialize.2.length) ∧
      ∀ rest rest', ∃ g, deserialize (f.serialize.1 ++ rest) (f.serialize.2 ++ rest') = some g ∧ Same f g shape ∧
        (shape.prod < 2 ^ 31 → g.base.size = f.base.size) := by
  obtain ⟨hb, ho⟩ := h.members
  have hd := LabelCost.base_describes hb
  obtain ⟨b, coefficients, share, offsets, lambda', bound'⟩ := f
  simp only at hb hd ho
  have hshare : ((if share = true then 1 else 0 : Nat) != 0) = share := by cases share <;> rfl
  by_cases hs : b.same = true
  · have hbase := LabelCost.base_same hd hs
    have hrep := hd.same hs
    rw [← hd.numVariables] at hrep
    refine ⟨by simp [sizes, serialize, hs], ?_⟩
    intro rest rest'
    refine ⟨⟨{ b with shape := [], size := b.maxNumLabels ^ b.numVariables % 2 ^ 64 }, coefficients, share, offsets, lambda', bound'⟩, ?_,
      ⟨rfl, ?_, fun _ _ _ => rfl⟩, ?_⟩
    · simp only [serialize, deserialize, hs, if_true, List.cons_append, List.nil_append, List.append_assoc, ne_eq, one_ne_zero, not_false_eq_true,
        readN, Option.map_some, readN_append, List.getElem?_cons_zero, ofCounts, hbase, hshare]
      rw [ho, hrep]
    · intro i _
      simp [Base.shapeAt, hs]
    · intro hp
      rw [LabelCost.base_small hb hp]
      simp only
      have e' : shape.prod = b.maxNumLabels ^ b.numVariables := by conv_lhs => rw [hrep, List.prod_replicate]
      rw [e']
      rw [e'] at hp
      exact Nat.mod_eq_of_lt (by omega)
  · have hs' : b.same = false := by simpa using hs
    obtain ⟨e1, e2⟩ := hd.full hs'
    have hfull := LabelCost.base_full hb hs'
    have hlen := hd.numVariables
    refine ⟨by simp [sizes, serialize, hs']; omega, ?_⟩
    intro rest rest'
    refine ⟨⟨b, coefficients, share, offsets, lambda', bound'⟩, ?_, ⟨rfl, fun _ _ => rfl, fun _ _ _ => rfl⟩, fun _ => rfl⟩
    simp only [serialize, deserialize, hs', Bool.false_eq_true, if_false, List.cons_append, List.nil_append, List.append_assoc, ne_eq,
      not_true_eq_false, e1, readN_append' shape _ hlen.symm, readN_append, ofShape, hfull, hshare]
    rw [ho]

example : (ofShape [2, 3] [(1 : Int), 2, 10, 20, 30] false 7 25).serialize = ([0, 2, 2, 3, 0, 5], [1, 2, 10, 20, 30, 7, 25]) := by decide

end SumConstraint
end
end OpenGM.SoftConstraint
