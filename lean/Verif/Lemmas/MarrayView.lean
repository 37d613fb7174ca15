import Verif.Lemmas.Marray
import Verif.Spec.Arrays
/-
Geometry invariant, and the agreement of scalar index, coordinates and offset.
-/
namespace OpenGM
open Spec Walkers
namespace Marray
namespace Geometry

theorem length_scan : ∀ (o : Order) (s : List Nat), (scan o s).length = s.prod
  | .lastMajor, s => length_allTuples s
  | .firstMajor, s => by
    simp only [scan, allTuplesLast_eq, List.length_map, length_allTuples]
    exact List.prod_reverse s

theorem stridesOf_length : ∀ (s : List Nat) (o : Order), (stridesOf s o).length = s.length
  | s, .lastMajor => by simp [stridesOf, stridesLoop_length]
  | s, .firstMajor => by simp [stridesOf, stridesLoop_length]

theorem scan_spec : ∀ {o : Order} {s c : List Nat} {i : Nat}, (scan o s)[i]? = some c → InShape s c ∧ dot (stridesOf s o) c = i
  | .lastMajor, s, c, i, h => by
    obtain ⟨h1, h2⟩ := idx_of_getElem? h
    refine ⟨h1, ?_⟩
    rw [stridesOf, dot_stridesLoop s c 1 (inShape_length h1), h2, Nat.one_mul]
  | .firstMajor, s, c, i, h => by
    simp only [scan, allTuplesLast_eq, List.getElem?_map, Option.map_eq_some_iff] at h
    obtain ⟨c', h1, rfl⟩ := h
    obtain ⟨h2, h3⟩ := idx_of_getElem? h1
    have h4 := inShape_reverse h2
    rw [List.reverse_reverse] at h4
    refine ⟨h4, ?_⟩
    rw [stridesOf, dot_reverse _ _ (by rw [stridesLoop_length, inShape_length h2]), dot_stridesLoop _ _ 1 (inShape_length h2), h3,
      Nat.one_mul]

theorem scan_of_inShape : ∀ {o : Order} {s c : List Nat}, InShape s c → (scan o s)[dot (stridesOf s o) c]? = some c
  | .lastMajor, s, c, h => by
    rw [stridesOf, dot_stridesLoop s c 1 (inShape_length h), Nat.one_mul]
    exact allTuples_idx s c h
  | .firstMajor, s, c, h => by
    have h1 := allTuples_idx _ _ (inShape_reverse h)
    simp only [scan, allTuplesLast_eq, List.getElem?_map, Option.map_eq_some_iff]
    refine ⟨c.reverse, ?_, List.reverse_reverse c⟩
    have h2 : dot (stridesOf s .firstMajor) c = idx s.reverse c.reverse := by
      have h3 := dot_reverse (stridesOf s .firstMajor) c (by rw [stridesOf_length, inShape_length h])
      rw [← h3, stridesOf, List.reverse_reverse, dot_stridesLoop _ _ 1 (by simp [inShape_length h]), Nat.one_mul]
    rw [h2, h1]

/-- What every view keeps: size and shape strides fit the shape, and a simple view has the strides of a dense array. -/
structure Inv (g : Geometry) : Prop where
  size : g.size = g.shape.prod
  shapeStrides : g.shapeStrides = stridesOf g.shape g.order
  length : g.strides.length = g.shape.length
  simple : g.isSimple = true → g.strides = g.shapeStrides

theorem Inv.shapeStrides_length {g : Geometry} (h : g.Inv) : g.shapeStrides.length = g.shape.length := by
  rw [h.shapeStrides, stridesOf_length]

theorem Inv.toIndex {g : Geometry} (h : g.Inv) {i : Nat} {c : List Nat} (hc : (scan g.order g.shape)[i]? = some c) :
    g.coordinatesToIndex c = some i := by
  obtain ⟨h1, h2⟩ := scan_spec hc
  rw [coordinatesToIndex, dotLoop_eq _ _ _ (by rw [h.shapeStrides_length, inShape_length h1]), h.shapeStrides, h2, Nat.zero_add]

theorem Inv.toOffset {g : Geometry} (h : g.Inv) {c : List Nat} (hc : InShape g.shape c) :
    g.coordinatesToOffset c = some (dot g.strides c) := by
  rw [coordinatesToOffset, dotLoop_eq _ _ _ (by rw [h.length, inShape_length hc]), Nat.zero_add]

theorem Inv.toCoordinates {g : Geometry} (h : g.Inv) (hd : g.shape ≠ []) {i : Nat} {c : List Nat}
    (hc : (scan g.order g.shape)[i]? = some c) : g.indexToCoordinates i = some c := by
  unfold indexToCoordinates
  rw [h.shapeStrides]
  cases ho : g.order with
  | lastMajor =>
    rw [ho] at hc
    obtain ⟨h1, h2⟩ := idx_of_getElem? (s := g.shape) hc
    have h3 := divLoop_strides g.shape c 1 [] 0 h1 (by omega)
    simp only [stridesOf, if_neg hd]
    rw [h2]
    simp only [Nat.one_mul, Nat.add_zero, List.append_nil, divLoop, Option.map_some] at h3
    rw [h3]
    simp
  | firstMajor =>
    rw [ho] at hc
    simp only [scan, allTuplesLast_eq, List.getElem?_map, Option.map_eq_some_iff] at hc
    obtain ⟨c', h1, rfl⟩ := hc
    obtain ⟨h2, h3⟩ := idx_of_getElem? h1
    have h4 := divLoop_strides _ _ 1 [] 0 h2 (by omega)
    simp only [Nat.one_mul, Nat.add_zero, List.append_nil, divLoop, Option.map_some] at h4
    simp only [stridesOf]
    rw [h3, h4]

theorem Inv.indexOffset {g : Geometry} (h : g.Inv) {i : Nat} {c : List Nat}
    (hc : (scan g.order g.shape)[i]? = some c) : g.indexToOffset i = some (dot g.strides c) := by
  unfold indexToOffset
  obtain ⟨h1, h2⟩ := scan_spec hc
  by_cases hs : g.isSimple = true
  · rw [if_pos hs, h.simple hs, h.shapeStrides, h2]
  rw [if_neg hs, h.shapeStrides]
  cases ho : g.order with
  | lastMajor =>
    rw [ho] at hc
    obtain ⟨h1, h2⟩ := idx_of_getElem? (s := g.shape) hc
    have h3 := offsetLoop_strides g.shape c 1 g.strides [] [] 0 0 h1 (by omega) h.length
    simp only [stridesOf]
    rw [h2]
    simp only [Nat.one_mul, Nat.add_zero, Nat.zero_add, List.append_nil, offsetLoop] at h3
    rw [h3]
  | firstMajor =>
    rw [ho] at hc
    simp only [scan, allTuplesLast_eq, List.getElem?_map, Option.map_eq_some_iff] at hc
    obtain ⟨c', h1', rfl⟩ := hc
    obtain ⟨h2', h3⟩ := idx_of_getElem? h1'
    have h4 := offsetLoop_strides _ _ 1 g.strides.reverse [] [] 0 0 h2' (by omega) (by simp [h.length])
    simp only [Nat.one_mul, Nat.add_zero, Nat.zero_add, List.append_nil, offsetLoop, List.reverse_reverse] at h4
    simp only [stridesOf]
    have hl := inShape_length h2'
    have h5 := dot_reverse g.strides c'.reverse (by simp [h.length, hl])
    rw [List.reverse_reverse] at h5
    rw [h3, h4, h5]

/-! ### constructors keep the invariant -/

theorem foldl_mul_prod (s : List Nat) : s.foldl (· * ·) 1 = s.prod := List.prod_eq_foldl.symm

theorem inv_dense (shape : List Nat) (e i : Order) : (dense shape e i).Inv := by
  unfold dense
  split
  · refine ⟨rfl, ?_, rfl, fun _ => rfl⟩
    cases i <;> rfl
  · refine ⟨foldl_mul_prod shape, rfl, stridesOf_length _ _, ?_⟩
    intro h
    have : e = i := of_decide_eq_true h
    subst this
    rfl

theorem inv_updateSimplicity {g : Geometry} (h1 : g.size = g.shape.prod) (h2 : g.shapeStrides = stridesOf g.shape g.order)
    (h3 : g.strides.length = g.shape.length) : (updateSimplicity g).Inv :=
  ⟨h1, h2, h3, fun h => (of_decide_eq_true h).symm⟩

theorem inv_strided (shape strides : List Nat) (o : Order) (h : strides.length = shape.length) : (strided shape strides o).Inv := by
  unfold strided
  split
  · refine ⟨rfl, ?_, rfl, fun _ => rfl⟩
    cases o <;> rfl
  · exact inv_updateSimplicity (foldl_mul_prod shape) rfl h

theorem dense_shape (shape : List Nat) (e i : Order) : (dense shape e i).shape = shape := by
  unfold dense; split
  · simp_all
  · rfl

theorem dense_order (shape : List Nat) (e i : Order) : (dense shape e i).order = i := by
  unfold dense; split <;> rfl

theorem dense_strides (shape : List Nat) (e i : Order) : (dense shape e i).strides = stridesOf shape e := by
  unfold dense; split
  · cases e <;> simp_all [stridesOf, stridesLoop]
  · rfl

theorem strided_shape (shape strides : List Nat) (o : Order) : (strided shape strides o).shape = shape := by
  unfold strided; split
  · simp_all
  · rfl

theorem strided_order (shape strides : List Nat) (o : Order) : (strided shape strides o).order = o := by
  unfold strided; split <;> rfl

theorem strided_strides (shape strides : List Nat) (o : Order) (h : strides.length = shape.length) :
    (strided shape strides o).strides = strides := by
  unfold strided; split
  · rename_i he
    subst he
    simp only
    exact (List.length_eq_zero_iff.mp h).symm
  · rfl

end Geometry
end Marray
end OpenGM
