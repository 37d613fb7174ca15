import Verif.Lemmas.TripleWalker
/-
C21-C23: the walkers of utilities/indexing.hxx.
-/
namespace OpenGM
open Spec
namespace Walkers

/-- The specified enumeration contains every tuple below the shape exactly once (for the first-coordinate-fastest order). -/
theorem C21_allTuples (shape : List Nat) :
    (allTuples shape).Nodup ∧ (∀ c, c ∈ allTuples shape ↔ InShape shape c) ∧ (allTuples shape).length = shape.prod :=
  ⟨nodup_allTuples shape, mem_allTuples shape, length_allTuples shape⟩

/-- The same for the last-coordinate-fastest order. -/
theorem C21_allTuplesLast (shape : List Nat) :
    (allTuplesLast shape).Nodup ∧ (∀ c, c ∈ allTuplesLast shape ↔ InShape shape c) ∧
      (allTuplesLast shape).length = shape.prod := by
  rw [allTuplesLast_eq]
  refine ⟨(nodup_allTuples _).map List.reverse_injective, ?_, ?_⟩
  · intro c
    rw [List.mem_map]
    constructor
    · rintro ⟨t, ht, rfl⟩
      have := inShape_reverse ((mem_allTuples _ _).mp ht)
      rwa [List.reverse_reverse] at this
    · intro h
      exact ⟨c.reverse, (mem_allTuples _ _).mpr (inShape_reverse h), List.reverse_reverse c⟩
  · rw [List.length_map, length_allTuples, List.prod_reverse]

/-- C21: the first (product of the extents) tuples of a ShapeWalker are all tuples below the shape, in order. -/
theorem C21_shapeWalker (shape : List Nat) (hp : ∀ n ∈ shape, 0 < n) :
    (List.range shape.prod).map (fun k => steps (shapeWalkerNext shape) k (shapeWalkerInit shape)) =
      (allTuples shape).map some := by
  apply List.ext_getElem?
  intro k
  rw [List.getElem?_map, List.getElem?_map]
  by_cases hk : k < shape.prod
  · rw [List.getElem?_range hk, Option.map_some]
    have := steps_allTuples (shapeWalkerNext shape) shape hp id (fun t t' ht h => shapeWalkerNext_spec ht h) k hk
    simp only [id] at this
    rw [shapeWalkerInit, this]
    have hl : k < (allTuples shape).length := by rw [length_allTuples]; exact hk
    rw [List.getElem?_eq_getElem hl]
    rfl
  · rw [List.getElem?_eq_none (by simpa using hk), List.getElem?_eq_none (by rw [length_allTuples]; omega)]
    rfl

/-- C21: the same for ShapeWalkerSwitchedOrder with the last coordinate fastest. -/
theorem C21_switchedOrder (shape : List Nat) (hp : ∀ n ∈ shape, 0 < n) :
    (List.range shape.prod).map (fun k => steps (switchedNext shape) k (shapeWalkerInit shape)) =
      (allTuplesLast shape).map some := by
  rw [allTuplesLast_eq]
  apply List.ext_getElem?
  intro k
  rw [List.getElem?_map, List.getElem?_map, List.getElem?_map]
  have hprod : shape.reverse.prod = shape.prod := List.prod_reverse shape
  by_cases hk : k < shape.prod
  · rw [List.getElem?_range hk, Option.map_some]
    have := steps_allTuples (switchedNext shape) shape.reverse (fun n hn => hp n (by simpa using hn)) List.reverse
      (by
        intro t t' ht h
        have hne : shape ≠ [] := by rintro rfl; simp [odoNext] at h
        obtain ⟨d, hd⟩ : ∃ d, shape.length = d + 1 := ⟨shape.length - 1, by have := List.length_pos_iff.mpr hne; omega⟩
        have := switchedLoop_aux shape.reverse t t' [] [] ht h
        simp only [List.reverse_reverse, List.append_nil, List.length_reverse, hd, Nat.add_sub_cancel] at this
        unfold switchedNext
        rw [hd]
        exact this) k (by rw [hprod]; exact hk)
    rw [List.length_reverse, List.reverse_replicate] at this
    rw [shapeWalkerInit, this]
    have hl : k < (allTuples shape.reverse).length := by rw [length_allTuples, hprod]; exact hk
    rw [List.getElem?_eq_getElem hl]
    rfl
  · rw [List.getElem?_eq_none (by simpa using hk), List.getElem?_eq_none (by rw [length_allTuples, hprod]; omega)]
    rfl

example : (List.range 6).map (fun k => steps (switchedNext [2, 3]) k (shapeWalkerInit [2, 3])) =
    [some [0, 0], some [0, 1], some [0, 2], some [1, 0], some [1, 1], some [1, 2]] := by decide

/-- Valid arguments for a SubShapeWalker: sorted positions in range with a value each, in range. -/
structure ValidFix (shape positions values : List Nat) : Prop where
  length : positions.length = values.length
  sorted : StrictlySorted positions
  inRange : ∀ i ∈ positions, i < shape.length
  values : ∀ i j v n : Nat, positions[i]? = some j → values[i]? = some v → shape[j]? = some n → v < n

theorem ValidFix.rem {shape positions values : List Nat} (h : ValidFix shape positions values) : Rem 0 positions values :=
  ⟨h.length, h.sorted, by simp⟩

/-- C22: SubShapeWalker never fails; in `subSize()` steps it visits every tuple below the shape with the fixed values exactly
once and no other tuple; with the fixed positions left out, the visited tuples are all tuples below the remaining extents
in first-coordinate-fastest order; `subSize()` is the product of the remaining extents. -/
theorem C22_subShapeWalker (shape positions values : List Nat) (hp : ∀ n ∈ shape, 0 < n)
    (hv : ValidFix shape positions values) :
    ∃ (start : List Nat) (size : Nat) (visited : List (List Nat)), subInit shape.length positions values = some start ∧ subSize shape positions = some size ∧
      (List.range size).map (fun k => steps (subNext shape positions) k start) = visited.map some ∧
      visited.Nodup ∧ (∀ c, c ∈ visited ↔ InShape shape c ∧ HasFixed positions values c) ∧
      visited.map (dropPositions positions) = allTuples (dropPositions positions shape) ∧
      size = (dropPositions positions shape).prod := by
  have hr := hv.rem
  have hpos : Positive (freeShape (maskFrom shape.length 0 positions values) shape) := freeShape_positive _ _ hp
  have hfree : freeShape (maskFrom shape.length 0 positions values) shape = dropPositions positions shape := by
    rw [freeShape_eq shape 0 positions values hr]; rfl
  refine ⟨_, _, (allTuples (freeShape (maskFrom shape.length 0 positions values) shape)).map
    (embed (maskFrom shape.length 0 positions values)), subInit_spec hr hv.inRange, subSize_spec hr, ?_, ?_, ?_, ?_, by rw [hfree]⟩
  · apply List.ext_getElem?
    intro k
    rw [List.getElem?_map, List.getElem?_map, List.getElem?_map]
    by_cases hk : k < (freeShape (maskFrom shape.length 0 positions values) shape).prod
    · rw [List.getElem?_range hk, Option.map_some]
      rw [steps_allTuples (subNext shape positions) _ hpos _ (fun t t' ht h => subNext_spec hr ht h) k hk]
      have hl : k < (allTuples (freeShape (maskFrom shape.length 0 positions values) shape)).length := by
        rw [length_allTuples]; exact hk
      rw [List.getElem?_eq_getElem hl]
      rfl
    · rw [List.getElem?_eq_none (by simpa using hk), List.getElem?_eq_none (by rw [length_allTuples]; omega)]
      rfl
  · rw [List.nodup_map_iff_inj_on (nodup_allTuples _)]
    intro t ht u hu
    exact embed_injective _ shape t u (maskFrom_length _ _ _ _) ((mem_allTuples _ _).mp ht) ((mem_allTuples _ _).mp hu)
  · intro c
    rw [List.mem_map]
    have := embed_mem shape 0 positions values c hr (by
      intro i j v n h1 h2 h3
      exact hv.values i j v n (by simpa using h1) h2 h3)
    constructor
    · rintro ⟨t, ht, rfl⟩
      have := this.mp ⟨t, (mem_allTuples _ _).mp ht, rfl⟩
      refine ⟨this.1, ?_⟩
      intro i j v h1 h2
      exact this.2 i j v (by simpa using h1) h2 (hv.inRange j (List.mem_of_getElem? h1))
    · rintro ⟨h1, h2⟩
      obtain ⟨t, ht, rfl⟩ := this.mpr ⟨h1, fun i j v g1 g2 _ => h2 i j v (by simpa using g1) g2⟩
      exact ⟨t, (mem_allTuples _ _).mpr ht, rfl⟩
  · rw [List.map_map, ← hfree]
    conv_rhs => rw [← List.map_id (allTuples _)]
    apply List.map_congr_left
    intro t ht
    have hin := (mem_allTuples _ _).mp ht
    exact drop_embed shape 0 positions values t hr hin

example : ValidFix [2, 3, 2] [1] [2] ∧ ∀ n ∈ [2, 3, 2], 0 < n := by
  refine ⟨⟨rfl, by simp [StrictlySorted], by simp, ?_⟩, by simp⟩
  intro i j v n h1 h2 h3
  cases i with
  | zero => simp at h1 h2; subst h1 h2; simp at h3; omega
  | succ i => simp at h1

/-- C23: after any number of steps of a TripleShapeWalker over sorted variable lists with A and B contained in AB, the AB tuple
is the `k`-th tuple below the shape (starting over after the last one), and the tuples of A and B are its restrictions. -/
theorem C23_tripleShapeWalker (shape viAB viA viB : List Nat) (hl : shape.length = viAB.length) (hp : ∀ n ∈ shape, 0 < n)
    (hAB : StrictlySorted viAB) (hA : StrictlySorted viA) (hB : StrictlySorted viB)
    (hsA : ∀ v ∈ viA, v ∈ viAB) (hsB : ∀ v ∈ viB, v ∈ viAB) (k : Nat) :
    ∃ c, steps (tripleNext shape viAB viA viB) k (tripleInit viAB viA viB) = some c ∧
      (allTuples shape)[k % shape.prod]? = some c.ab ∧ Restricts viAB viA c.ab c.a ∧ Restricts viAB viB c.ab c.b :=
  tripleNext_spec hl (nodup_of_sorted hAB) (sublist_of_sorted hA hAB hsA) (sublist_of_sorted hB hAB hsB) hp k

/-- C23: the same for DoubleShapeWalker. -/
theorem C23_doubleShapeWalker (shape viAB viA : List Nat) (hl : shape.length = viAB.length) (hp : ∀ n ∈ shape, 0 < n)
    (hAB : StrictlySorted viAB) (hA : StrictlySorted viA) (hsA : ∀ v ∈ viA, v ∈ viAB) (k : Nat) :
    ∃ c, steps (doubleNext shape viAB viA) k (doubleInit viAB viA) = some c ∧
      (allTuples shape)[k % shape.prod]? = some c.1 ∧ Restricts viAB viA c.1 c.2 :=
  doubleNext_spec hl (nodup_of_sorted hAB) (sublist_of_sorted hA hAB hsA) hp k

/-- Hypotheses of C23 for three variables, A = {2, 7}, B = {5}; step 4 of 12. -/
example : StrictlySorted [2, 5, 7] ∧ StrictlySorted [2, 7] ∧ StrictlySorted [5] ∧ (∀ v ∈ [2, 7], v ∈ [2, 5, 7]) ∧
    steps (tripleNext [2, 3, 2] [2, 5, 7] [2, 7] [5]) 9 (tripleInit [2, 5, 7] [2, 7] [5]) = some ⟨[1, 1, 1], [1, 1], [1]⟩ := by
  refine ⟨by simp [StrictlySorted], by simp [StrictlySorted], by simp [StrictlySorted], by simp, by decide⟩

end Walkers
end OpenGM
