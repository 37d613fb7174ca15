import Verif.Model.RandomAccessSet
import Verif.Prelude
namespace OpenGM.RandomAccessSet

/-- comparison object `std::less<K>` -/
def less {K : Type} [LinearOrder K] (a b : K) : Bool := decide (a < b)

variable {K : Type} [LinearOrder K]

theorem insert_cons (a : K) (v : List K) (x : K) :
    (insert less (a :: v) x).1 =
      if a < x then a :: (insert less v x).1 else if x < a then x :: a :: v else a :: v := by
  unfold insert lowerBound less
  by_cases h : a < x
  · simp only [List.takeWhile_cons, h, decide_true, if_true, List.length_cons]
    simp only [List.getElem?_cons_succ]
    split
    · simp
    · split <;> simp
  · by_cases h2 : x < a <;> simp [List.takeWhile_cons, h, h2]

theorem insert_nil (x : K) : (insert less ([] : List K) x).1 = [x] := by simp [insert, lowerBound]

theorem insert_new_cons (a : K) (v : List K) (x : K) :
    (insert less (a :: v) x).2.2 =
      if a < x then (insert less v x).2.2 else decide (x < a) := by
  unfold insert lowerBound less
  by_cases h : a < x
  · simp only [List.takeWhile_cons, h, decide_true, if_true, List.length_cons, List.getElem?_cons_succ]
    split
    · simp
    · split <;> simp
  · by_cases h2 : x < a <;> simp [List.takeWhile_cons, h, h2]

theorem insert_pos_cons (a : K) (v : List K) (x : K) :
    (insert less (a :: v) x).2.1 =
      if a < x then (insert less v x).2.1 + 1 else 0 := by
  unfold insert lowerBound less
  by_cases h : a < x
  · simp only [List.takeWhile_cons, h, decide_true, if_true, List.length_cons, List.getElem?_cons_succ]
    split
    · simp
    · split <;> simp
  · by_cases h2 : x < a <;> simp [List.takeWhile_cons, h, h2]

theorem find_cons (a : K) (v : List K) (x : K) :
    find less (a :: v) x =
      if a < x then find less v x + 1 else if x < a then v.length + 1 else 0 := by
  unfold find lowerBound less
  by_cases h : a < x
  · simp only [List.takeWhile_cons, h, decide_true, if_true, List.length_cons, List.getElem?_cons_succ]
    split
    · simp
    · split <;> simp
  · by_cases h2 : x < a <;> simp [List.takeWhile_cons, h, h2]

theorem mem_insert (v : List K) (x k : K) (hs : v.Pairwise (· < ·)) :
    k ∈ (insert less v x).1 ↔ k = x ∨ k ∈ v := by
  induction v with
  | nil => simp [insert_nil]
  | cons a v ih =>
    rw [insert_cons]
    have := ih hs.of_cons
    split
    · simp [this]; tauto
    · split
      · simp
      · have : a = x := le_antisymm (not_lt.mp ‹_›) (not_lt.mp ‹_›)
        subst this; simp

theorem sorted_insert (v : List K) (x : K) (hs : v.Pairwise (· < ·)) :
    (insert less v x).1.Pairwise (· < ·) := by
  induction v with
  | nil => simp [insert_nil]
  | cons a v ih =>
    rw [insert_cons]
    have hs' := List.pairwise_cons.mp hs
    split
    · rename_i h
      refine List.pairwise_cons.mpr ⟨?_, ih hs'.2⟩
      intro b hb
      rw [mem_insert _ _ _ hs'.2] at hb
      rcases hb with rfl | hb
      · exact h
      · exact hs'.1 b hb
    · split
      · rename_i h
        refine List.pairwise_cons.mpr ⟨?_, hs⟩
        intro b hb
        rcases List.mem_cons.mp hb with rfl | hb
        · exact h
        · exact lt_trans h (hs'.1 b hb)
      · exact hs

theorem insert_new (v : List K) (x : K) (hs : v.Pairwise (· < ·)) :
    (insert less v x).2.2 = decide (x ∉ v) := by
  induction v with
  | nil => simp [insert, lowerBound]
  | cons a v ih =>
    rw [insert_new_cons]
    have hs' := List.pairwise_cons.mp hs
    split
    · rename_i h
      rw [ih hs'.2]
      have : x ≠ a := ne_of_gt h
      simp [this]
    · by_cases h : x < a
      · have h1 : x ≠ a := ne_of_lt h
        have h2 : x ∉ v := fun hx => absurd (lt_trans h (hs'.1 x hx)) (lt_irrefl x)
        simp [h, h1, h2]
      · have : a = x := le_antisymm (not_lt.mp ‹_›) (not_lt.mp ‹_›)
        subst this; simp

theorem insert_getElem (v : List K) (x : K) (hs : v.Pairwise (· < ·)) :
    (insert less v x).1[(insert less v x).2.1]? = some x := by
  induction v with
  | nil => simp [insert, lowerBound]
  | cons a v ih =>
    rw [insert_cons, insert_pos_cons]
    have hs' := List.pairwise_cons.mp hs
    split
    · simpa using ih hs'.2
    · split
      · simp
      · have : a = x := le_antisymm (not_lt.mp ‹_›) (not_lt.mp ‹_›)
        subst this; simp

theorem find_spec (v : List K) (x : K) (hs : v.Pairwise (· < ·)) :
    (x ∈ v → v[find less v x]? = some x) ∧ (x ∉ v → find less v x = v.length) := by
  induction v with
  | nil => simp [find, lowerBound]
  | cons a v ih =>
    rw [find_cons]
    have hs' := List.pairwise_cons.mp hs
    have ih := ih hs'.2
    split
    · rename_i h
      have hne : x ≠ a := ne_of_gt h
      constructor
      · intro hx
        simpa using ih.1 (by simpa [hne] using hx)
      · intro hx
        simpa using ih.2 (by simpa [hne] using hx)
    · split
      · rename_i h
        constructor
        · intro hx
          rcases List.mem_cons.mp hx with rfl | hx
          · exact absurd h (lt_irrefl _)
          · exact absurd (lt_trans h (hs'.1 x hx)) (lt_irrefl x)
        · simp
      · have : a = x := le_antisymm (not_lt.mp ‹_›) (not_lt.mp ‹_›)
        subst this; simp

theorem find_lt_iff (v : List K) (x : K) (hs : v.Pairwise (· < ·)) :
    find less v x ≠ v.length ↔ x ∈ v := by
  have := find_spec v x hs
  constructor
  · intro h; by_contra hx; exact h (this.2 hx)
  · intro hx h
    have := this.1 hx
    rw [h] at this
    simp at this

theorem erase_cons (a : K) (v : List K) (x : K) :
    (erase less (a :: v) x).1 =
      if a < x then a :: (erase less v x).1 else if x < a then a :: v else v := by
  unfold erase
  simp only [find_cons, List.length_cons]
  by_cases h : a < x
  · simp only [h, if_true]
    by_cases h2 : find less v x = v.length <;> simp [h2]
  · by_cases h2 : x < a <;> simp [h, h2]

theorem erase_eq_filter (v : List K) (x : K) (hs : v.Pairwise (· < ·)) :
    (erase less v x).1 = v.filter (· ≠ x) := by
  induction v with
  | nil => simp [erase, find, lowerBound]
  | cons a v ih =>
    rw [erase_cons]
    have hs' := List.pairwise_cons.mp hs
    split
    · rename_i h
      rw [ih hs'.2, List.filter_cons]; simp [ne_of_lt h]
    · split
      · rename_i h
        have h2 : ∀ b ∈ v, b ≠ x := fun b hb hbx => absurd (lt_trans h (hs'.1 b hb)) (hbx ▸ lt_irrefl x)
        rw [List.filter_cons]; simp [ne_of_gt h]
        exact (List.filter_eq_self.mpr (by simpa using h2)).symm
      · have hax : a = x := le_antisymm (not_lt.mp ‹_›) (not_lt.mp ‹_›)
        subst hax
        have h2 : ∀ b ∈ v, b ≠ a := fun b hb hba => absurd (hs'.1 b hb) (hba ▸ lt_irrefl a)
        rw [List.filter_cons]; simp
        exact (List.filter_eq_self.mpr (by simpa using h2)).symm

theorem insertRange_spec (xs : List K) (v : List K) (hs : v.Pairwise (· < ·)) :
    (insertRange less v xs).Pairwise (· < ·) ∧ ∀ k, k ∈ insertRange less v xs ↔ k ∈ xs ∨ k ∈ v := by
  induction xs generalizing v with
  | nil => simp [insertRange, hs]
  | cons x xs ih =>
    have := ih (insert less v x).1 (sorted_insert v x hs)
    refine ⟨this.1, fun k => ?_⟩
    have h2 := this.2 k
    rw [mem_insert _ _ _ hs] at h2
    rw [show insertRange less v (x :: xs) = insertRange less (insert less v x).1 xs from rfl, h2]
    simp; tauto

end OpenGM.RandomAccessSet
