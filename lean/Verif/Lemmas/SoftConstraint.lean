import Verif.Model.SoftConstraint
import Verif.Spec.SoftConstraint
import Verif.Spec.Energy
import Verif.Lemmas.Learnable
import Verif.Props.Utilities
import Mathlib.Algebra.BigOperators.Intervals
import Mathlib.Algebra.Order.Ring.Defs

/-! Lemmas for C79. -/
namespace OpenGM.SoftConstraint
open Spec Learnable

/-! ### The members about the shape -/

theorem toInt_congr {x y : Nat} (h : x % 2 ^ 32 = y % 2 ^ 32) : toInt x = toInt y := by
  unfold toInt; rw [h]

theorem ofInt_toInt (a : Nat) : ofInt (toInt a) % 2 ^ 32 = a % 2 ^ 32 := by
  unfold ofInt toInt
  split <;> omega

theorem fold_toInt (l : List Nat) : ∀ a : Nat,
    l.foldl (fun acc s => toInt (ofInt acc * s % 2 ^ 64)) (toInt a) = toInt (a * l.prod) := by
  induction l with
  | nil => intro a; simp
  | cons s l ih =>
    intro a
    rw [List.foldl_cons, List.prod_cons, ← mul_assoc, ← ih]
    congr 1
    apply toInt_congr
    have e : ofInt (toInt a) * s % 2 ^ 64 % 2 ^ 32 = ofInt (toInt a) * s % 2 ^ 32 := Nat.mod_mod_of_dvd _ (by decide)
    rw [e, Nat.mul_mod, ofInt_toInt, ← Nat.mul_mod]

theorem accumulateSize_eq (shape : List Nat) : accumulateSize shape = ofInt (toInt shape.prod) := by
  have h := fold_toInt shape 1
  rw [show toInt 1 = 1 from by decide, one_mul] at h
  unfold accumulateSize
  rw [h]

theorem accumulateSize_small {shape : List Nat} (h : shape.prod < 2 ^ 31) : accumulateSize shape = shape.prod := by
  rw [accumulateSize_eq]
  generalize shape.prod = p at h
  unfold ofInt toInt
  split <;> omega

theorem foldl_max (l : List Nat) : ∀ a : Nat, (∀ x ∈ a :: l, x ≤ l.foldl (fun m x => if m < x then x else m) a) ∧
    l.foldl (fun m x => if m < x then x else m) a ∈ a :: l := by
  induction l with
  | nil => intro a; simp
  | cons b l ih =>
    intro a
    rw [List.foldl_cons]
    obtain ⟨h1, h2⟩ := ih (if a < b then b else a)
    constructor
    · intro x hx
      have h3 := h1 (if a < b then b else a) (by simp)
      rcases List.mem_cons.mp hx with rfl | hx
      · refine le_trans ?_ h3; split <;> omega
      · rcases List.mem_cons.mp hx with rfl | hx
        · refine le_trans ?_ h3; split <;> omega
        · exact h1 x (by simp [hx])
    · rcases List.mem_cons.mp h2 with h | h
      · rw [h]; split <;> simp
      · simp [h]

theorem le_maxElement {shape : List Nat} {s : Nat} (h : s ∈ shape) : s ≤ maxElement shape := by
  cases shape with
  | nil => simp at h
  | cons a l => exact (foldl_max l a).1 s h

theorem maxElement_mem {shape : List Nat} (h : shape ≠ []) : maxElement shape ∈ shape := by
  cases shape with
  | nil => exact absurd rfl h
  | cons a l => exact (foldl_max l a).2

theorem allEqual_iff : ∀ shape : List Nat, allEqual shape = true ↔ ∀ s ∈ shape, ∀ t ∈ shape, s = t
  | [] => by simp [allEqual]
  | [a] => by simp [allEqual]
  | a :: b :: l => by
    rw [allEqual, Bool.and_eq_true, beq_iff_eq, allEqual_iff (b :: l)]
    constructor
    · rintro ⟨rfl, h⟩ s hs t ht
      have h' : ∀ s ∈ b :: b :: l, s = b := by
        intro s hs
        rcases List.mem_cons.mp hs with rfl | hs
        · rfl
        · exact h s hs b (by simp)
      rw [h' s hs, h' t ht]
    · intro h
      exact ⟨h b (by simp) a (by simp), fun s hs t ht => h s (by simp [hs]) t (by simp [ht])⟩

theorem allEqual_replicate {shape : List Nat} (h : allEqual shape = true) : shape = List.replicate shape.length (maxElement shape) := by
  rw [allEqual_iff] at h
  apply List.eq_replicate_iff.mpr ⟨rfl, ?_⟩
  intro b hb
  exact h b hb _ (maxElement_mem (List.ne_nil_of_mem hb))

/-- The members describe the shape. -/
structure Describes (b : Base) (shape : List Nat) : Prop where
  numVariables : b.numVariables = shape.length
  bound : ∀ s ∈ shape, s ≤ b.maxNumLabels
  shapeAt : ∀ i, i < shape.length → b.shapeAt i = shape[i]?
  same : b.same = true → shape = List.replicate shape.length b.maxNumLabels
  full : b.same = false → b.shape = shape ∧ allEqual shape = false

theorem describes_ofShape (shape : List Nat) : Describes (Base.ofShape shape) shape where
  numVariables := rfl
  bound := fun _ h => le_maxElement h
  shapeAt := by
    intro i hi
    unfold Base.shapeAt Base.ofShape
    simp only
    split
    · rename_i h
      have e := allEqual_replicate h
      rw [List.getElem?_eq_getElem hi]
      exact congrArg some (((allEqual_iff shape).mp h) _ (maxElement_mem (by rintro rfl; simp at hi)) _ (List.getElem_mem hi))
    · rfl
  same := fun h => allEqual_replicate h
  full := fun h => ⟨rfl, h⟩

theorem ofCounts_eq (n k : Nat) : Base.ofCounts n k =
    some { shape := [], numVariables := n, maxNumLabels := k, same := true, size := k ^ n % 2 ^ 64 } := by
  unfold Base.ofCounts
  rw [Util.C47_pow 64 (by decide)]
  rfl

theorem describes_ofCounts {n k : Nat} {b : Base} (h : Base.ofCounts n k = some b) : Describes b (List.replicate n k) := by
  rw [ofCounts_eq] at h
  cases h
  refine ⟨by simp, by simp, ?_, by simp, by simp⟩
  intro i hi
  rw [List.length_replicate] at hi
  simp [Base.shapeAt, hi]

theorem readAll_take (l : List Nat) : ∀ n : Nat, n ≤ l.length → readAll l n = some (l.take n)
  | 0, _ => by simp [readAll]
  | n + 1, h => by
    rw [readAll, readAll_take l n (by omega), List.getElem?_eq_getElem (by omega)]
    simp only
    rw [List.take_succ_eq_append_getElem (by omega)]

theorem readAll_length (l : List Nat) : readAll l l.length = some l := by
  rw [readAll_take l _ (le_refl _), List.take_length]

theorem inShape_length : ∀ {shape x : List Nat}, InShape shape x → x.length = shape.length
  | [], [], _ => rfl
  | _ :: _, _ :: _, h => by simp [inShape_length h.2]
  | [], _ :: _, h => absurd h (by simp [InShape])
  | _ :: _, [], h => absurd h (by simp [InShape])

theorem inShape_lt {m : Nat} : ∀ {shape x : List Nat}, InShape shape x → (∀ s ∈ shape, s ≤ m) → ∀ l ∈ x, l < m
  | [], [], _, _, l, hl => by simp at hl
  | s :: _, a :: _, h, hb, l, hl => by
    rcases List.mem_cons.mp hl with rfl | hl
    · exact lt_of_lt_of_le h.1 (hb s (by simp))
    · exact inShape_lt h.2 (fun t ht => hb t (by simp [ht])) l hl
  | [], _ :: _, h, _, _, _ => absurd h (by simp [InShape])
  | _ :: _, [], h, _, _, _ => absurd h (by simp [InShape])

/-! ### LabelCostFunction -/

variable {V : Type} [CommRing V]

namespace LabelCost

theorem finds_spec (label : Nat) (rest : List Nat) : ∀ x : List Nat, finds label x.length (x ++ rest) = some (decide (label ∈ x))
  | [] => by simp [finds]
  | s :: x => by
    simp only [List.length_cons, List.cons_append, finds]
    split
    · rename_i h; simp [h]
    · rename_i h
      rw [finds_spec label rest x]
      simp [Ne.symm h]

theorem loop_spec (m : Nat) (costs : List V) (hc : m ≤ costs.length) (rest : List Nat) : ∀ (x : List Nat) (used : List Bool) (result : V)
    (S : Finset Nat), (∀ l ∈ x, l < m) → (∀ l : Nat, l < m → used[l]? = some (decide (l ∈ S))) → S ⊆ Finset.range m →
    loop m costs x.length (x ++ rest) used S.card result = some (result + ∑ l ∈ x.toFinset \ S, costs.getD l 0)
  | [], used, result, S, _, _, _ => by simp [loop]
  | s :: x, used, result, S, hx, hu, hS => by
    have hs : s < m := hx s (by simp)
    have hx' : ∀ l ∈ x, l < m := fun l hl => hx l (by simp [hl])
    simp only [List.length_cons, List.cons_append, loop]
    rw [hu s hs]
    by_cases hm : s ∈ S
    · rw [decide_eq_true hm]
      simp only
      have e : (s :: x).toFinset \ S = x.toFinset \ S := by
        rw [List.toFinset_cons, Finset.insert_sdiff_of_mem _ hm]
      rw [e]
      split
      · rename_i hcard
        have hall : S = Finset.range m := Finset.eq_of_subset_of_card_le hS (by simp [hcard])
        have : x.toFinset \ S = ∅ := by
          rw [Finset.sdiff_eq_empty_iff_subset, hall]
          intro l hl
          exact Finset.mem_range.mpr (hx' l (List.mem_toFinset.mp hl))
        simp [this]
      · exact loop_spec m costs hc rest x used result S hx' hu hS
    · rw [decide_eq_false hm]
      simp only
      rw [List.getElem?_eq_getElem (by omega)]
      simp only
      have hcard : (insert s S).card = S.card + 1 := Finset.card_insert_of_notMem hm
      have hS' : insert s S ⊆ Finset.range m := by
        intro l hl
        rcases Finset.mem_insert.mp hl with rfl | hl
        · exact Finset.mem_range.mpr hs
        · exact hS hl
      have e : (s :: x).toFinset \ S = insert s (x.toFinset \ insert s S) := by
        ext l
        simp only [List.toFinset_cons, Finset.mem_sdiff, Finset.mem_insert, List.mem_toFinset]
        constructor
        · rintro ⟨rfl | h1, h2⟩
          · exact Or.inl rfl
          · by_cases hl : l = s
            · exact Or.inl hl
            · exact Or.inr ⟨h1, by simp [hl, h2]⟩
        · rintro (rfl | ⟨h1, h2⟩)
          · exact ⟨Or.inl rfl, hm⟩
          · exact ⟨Or.inr h1, fun h => h2 (Or.inr h)⟩
      have hsum : ∑ l ∈ (s :: x).toFinset \ S, costs.getD l 0 = costs[s]'(by omega) + ∑ l ∈ x.toFinset \ insert s S, costs.getD l 0 := by
        rw [e, Finset.sum_insert (by simp)]
        congr 1
        rw [List.getD_eq_getElem?_getD, List.getElem?_eq_getElem (by omega)]
        rfl
      split
      · rename_i hfull
        have hall : insert s S = Finset.range m := Finset.eq_of_subset_of_card_le hS' (by simp [hcard, hfull])
        have : x.toFinset \ insert s S = ∅ := by
          rw [Finset.sdiff_eq_empty_iff_subset, hall]
          intro l hl
          exact Finset.mem_range.mpr (hx' l (List.mem_toFinset.mp hl))
        rw [hsum, this]
        simp
      · rw [← hcard, loop_spec m costs hc rest x (used.set s true) _ (insert s S) hx' ?_ hS', hsum, add_assoc]
        intro l hl
        by_cases hl' : s = l
        · subst hl'
          have : s < used.length := by
            have := hu s hs
            rw [List.getElem?_eq_some_iff] at this
            exact this.1
          rw [List.getElem?_set_self this]
          simp
        · rw [List.getElem?_set_ne hl', hu l hl]
          simp [Ne.symm hl']

end LabelCost

/-! ### SumConstraintFunction -/

namespace SumConstraint

theorem sharedLoop_spec (coefficients : List V) (rest : List Nat) : ∀ (x : List Nat) (r : V), (∀ l ∈ x, l < coefficients.length) →
    sharedLoop coefficients x.length (x ++ rest) r = some (r + (x.map (fun l => coefficients.getD l 0)).sum)
  | [], r, _ => by simp [sharedLoop]
  | s :: x, r, h => by
    have hs : s < coefficients.length := h s (by simp)
    simp only [List.length_cons, List.cons_append, sharedLoop]
    rw [List.getElem?_eq_getElem hs]
    simp only
    rw [sharedLoop_spec coefficients rest x _ (fun l hl => h l (by simp [hl]))]
    simp [hs, add_assoc]

theorem offsetsOf_get : ∀ (shape : List Nat) (off i : Nat), i < shape.length → (offsetsOf off shape)[i]? = some (off + (shape.take i).sum)
  | s :: shape, off, 0, _ => by simp [offsetsOf]
  | s :: shape, off, i + 1, h => by
    simp only [offsetsOf, List.getElem?_cons_succ]
    rw [offsetsOf_get shape (off + s) i (by simpa using h)]
    simp [add_assoc]

/-- The list of the coefficients, variable by variable, is read through the offsets. -/
theorem ownLoop_spec (rest : List Nat) (offsets : List Nat) : ∀ (tables : List (List V)) (x : List Nat) (pre post : List V) (i : Nat) (r : V),
    InShape (tables.map List.length) x →
    (∀ j, j < tables.length → offsets[i + j]? = some (pre.length + ((tables.map List.length).take j).sum)) →
    ownLoop (pre ++ tables.flatten ++ post) offsets x.length i (x ++ rest) r =
      some (r + (List.zipWith (fun t l => t.getD l 0) tables x).sum)
  | [], [], pre, post, i, r, _, _ => by simp [ownLoop]
  | t :: tables, s :: x, pre, post, i, r, h, ho => by
    have hs : s < t.length := h.1
    simp only [List.length_cons, List.cons_append, ownLoop]
    have h0 := ho 0 (by simp)
    simp only [Nat.add_zero, List.take_zero, List.sum_nil] at h0
    rw [h0]
    simp only
    have hget : (pre ++ (t :: tables).flatten ++ post)[pre.length + s]? = some (t.getD s 0) := by
      rw [List.append_assoc, List.getElem?_append_right (by omega), Nat.add_sub_cancel_left, List.flatten_cons, List.append_assoc,
        List.getElem?_append_left hs, List.getD_eq_getElem?_getD, List.getElem?_eq_getElem hs]
      rfl
    rw [hget]
    simp only
    have e : pre ++ (t :: tables).flatten ++ post = (pre ++ t) ++ tables.flatten ++ post := by simp
    rw [e, ownLoop_spec rest offsets tables x (pre ++ t) post (i + 1) _ h.2 ?_]
    · simp [add_assoc]
    · intro j hj
      have := ho (j + 1) (by simpa using hj)
      rw [show i + 1 + j = i + (j + 1) from by omega, this]
      simp [add_assoc]
  | [], _ :: _, _, _, _, _, h, _ => absurd h (by simp [InShape])
  | _ :: _, [], _, _, _, _, h, _ => absurd h (by simp [InShape])

end SumConstraint
end OpenGM.SoftConstraint
