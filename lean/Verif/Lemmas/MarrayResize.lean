import Verif.Lemmas.MarrayCopy
/-
Arrays: access, resize, copies of views.
-/
namespace OpenGM
open Spec Walkers
namespace Marray
open Geometry

/-- Extents of the region of overlap of `s` and `t`, an entry per entry of `s`. -/
def overlap : List Nat → List Nat → List Nat
  | [], _ => []
  | _ :: s, [] => 1 :: overlap s []
  | n :: s, m :: t => min n m :: overlap s t

theorem overlap_nil : ∀ s : List Nat, overlap s [] = List.replicate s.length 1
  | [] => rfl
  | _ :: s => by rw [overlap, overlap_nil s]; rfl

theorem overlap_eq : ∀ s t : List Nat, List.zipWith min s t ++ List.replicate (s.length - t.length) 1 = overlap s t
  | [], t => by simp [overlap]
  | n :: s, [] => by
    rw [overlap_nil]
    simp
  | n :: s, m :: t => by
    rw [overlap, ← overlap_eq s t]
    simp

theorem zipWith_min_comm : ∀ s t : List Nat, List.zipWith min s t = List.zipWith min t s
  | [], t => by simp
  | _ :: _, [] => by simp
  | n :: s, m :: t => by simp [zipWith_min_comm s t, Nat.min_comm]

theorem overlap_length : ∀ s t : List Nat, (overlap s t).length = s.length
  | [], _ => rfl
  | _ :: s, [] => by simp [overlap, overlap_length s []]
  | _ :: s, _ :: t => by simp [overlap, overlap_length s t]

theorem sameCell_cons {x y : Nat} {c c' : List Nat} : SameCell (x :: c) (y :: c') ↔ x = y ∧ SameCell c c' := by
  constructor
  · intro h
    exact ⟨by simpa using h 0, fun j => by simpa using h (j + 1)⟩
  · rintro ⟨h1, h2⟩ j
    cases j with
    | zero => simpa using h1
    | succ j => simpa using h2 j

theorem sameCell_nil_cons {y : Nat} {c' : List Nat} : SameCell [] (y :: c') ↔ y = 0 ∧ SameCell [] c' := by
  constructor
  · intro h
    refine ⟨?_, fun j => by simpa using h (j + 1)⟩
    have := h 0
    simp at this
    omega
  · rintro ⟨h1, h2⟩ j
    cases j with
    | zero => simp [h1]
    | succ j => simpa using h2 j

theorem _root_.OpenGM.Spec.SameCell.symm {c c' : List Nat} (h : SameCell c c') : SameCell c' c := fun j => (h j).symm

theorem inShape_overlap : ∀ {s t c c' : List Nat}, InShape s c → InShape t c' → SameCell c c' → InShape (overlap s t) c
  | [], _, [], _, _, _, _ => trivial
  | [], _, _ :: _, _, h, _, _ => by simp [InShape] at h
  | _ :: _, _, [], _, h, _, _ => by simp [InShape] at h
  | n :: s, [], x :: c, [], h, h', hc => by
    obtain ⟨h1, h2⟩ := sameCell_nil_cons.mp hc.symm
    exact ⟨by omega, inShape_overlap h.2 h' h2.symm⟩
  | _ :: _, [], _, _ :: _, _, h, _ => by simp [InShape] at h
  | _ :: _, _ :: _, _, [], _, h, _ => by simp [InShape] at h
  | n :: s, m :: t, x :: c, y :: c', h, h', hc => by
    obtain ⟨h1, h2⟩ := sameCell_cons.mp hc
    have h3 := h.1
    have h4 := h'.1
    exact ⟨by simp only [lt_min_iff]; omega, inShape_overlap h.2 h'.2 h2⟩

theorem overlap_sub : ∀ {s t c : List Nat}, InShape (overlap s t) c → Positive s → InShape s c
  | [], _, _, h, _ => h
  | _ :: _, [], [], h, _ => by simp [overlap, InShape] at h
  | _ :: _, _ :: _, [], h, _ => by simp [overlap, InShape] at h
  | n :: s, [], x :: c, h, hp => by
    have h1 := h.1
    have hn := hp n (by simp)
    exact ⟨by omega, overlap_sub h.2 (fun k hk => hp k (List.mem_cons_of_mem _ hk))⟩
  | n :: s, m :: t, x :: c, h, hp => by
    have h1 := h.1
    simp only [lt_min_iff] at h1
    exact ⟨h1.1, overlap_sub h.2 (fun k hk => hp k (List.mem_cons_of_mem _ hk))⟩

theorem overlap_cell : ∀ {s t c' : List Nat}, InShape (overlap t s) c' → Positive s → ∃ c, InShape s c ∧ SameCell c c'
  | [], [], c', h, _ => by
    cases c' with
    | nil => exact ⟨[], trivial, fun _ => rfl⟩
    | cons _ _ => simp [overlap, InShape] at h
  | n :: s, [], c', h, hp => by
    cases c' with
    | nil =>
      obtain ⟨c, h1, h2⟩ := overlap_cell (s := s) (t := []) (c' := []) trivial (fun k hk => hp k (List.mem_cons_of_mem _ hk))
      refine ⟨0 :: c, ⟨hp n (by simp), h1⟩, ?_⟩
      exact (sameCell_nil_cons.mpr ⟨rfl, h2.symm⟩).symm
    | cons _ _ => simp [overlap, InShape] at h
  | [], m :: t, c', h, hp => by
    cases c' with
    | nil => simp [overlap, InShape] at h
    | cons y c' =>
      obtain ⟨c, h1, h2⟩ := overlap_cell (s := []) (t := t) (c' := c') h.2 hp
      have hy := h.1
      have : c = [] := by cases c with
        | nil => rfl
        | cons _ _ => simp [InShape] at h1
      subst this
      exact ⟨[], trivial, sameCell_nil_cons.mpr ⟨by omega, h2⟩⟩
  | n :: s, m :: t, c', h, hp => by
    cases c' with
    | nil => simp [overlap, InShape] at h
    | cons y c' =>
      obtain ⟨c, h1, h2⟩ := overlap_cell (s := s) (t := t) (c' := c') h.2 (fun k hk => hp k (List.mem_cons_of_mem _ hk))
      have hy := h.1
      simp only [lt_min_iff] at hy
      exact ⟨y :: c, ⟨hy.2, h1⟩, sameCell_cons.mpr ⟨rfl, h2⟩⟩

theorem keep_replicate : ∀ (n : Nat) (c : List Nat), keepNonSingleton (List.replicate n 1) c = []
  | 0, c => by simp [keepNonSingleton]
  | n + 1, [] => by simp [List.replicate_succ, keepNonSingleton]
  | n + 1, x :: c => by simp [List.replicate_succ, keepNonSingleton, keep_replicate n c]

theorem keep_overlap : ∀ {s t c c' : List Nat}, c.length = s.length → c'.length = t.length → SameCell c c' →
    keepNonSingleton (overlap s t) c = keepNonSingleton (overlap t s) c'
  | [], t, c, c', _, _, _ => by
    rw [overlap_nil, keep_replicate]
    simp [overlap, keepNonSingleton]
  | n :: s, [], c, c', _, _, _ => by
    rw [overlap_nil, keep_replicate]
    simp [overlap, keepNonSingleton]
  | _ :: _, _ :: _, [], _, h, _, _ => by simp at h
  | _ :: _, _ :: _, _ :: _, [], _, h, _ => by simp at h
  | n :: s, m :: t, x :: c, y :: c', h, h', hc => by
    obtain ⟨h1, h2⟩ := sameCell_cons.mp hc
    have ih := keep_overlap (s := s) (t := t) (by simpa using h) (by simpa using h') h2
    simp only [overlap, keepNonSingleton]
    rw [Nat.min_comm m n, h1, ih]

theorem keep_overlap_shape : ∀ (s t : List Nat),
    keepNonSingleton (overlap s t) (overlap s t) = keepNonSingleton (overlap t s) (overlap t s)
  | [], t => by
    rw [overlap_nil, keep_replicate]
    simp [overlap, keepNonSingleton]
  | n :: s, [] => by
    rw [overlap_nil, keep_replicate]
    simp [overlap, keepNonSingleton]
  | n :: s, m :: t => by
    simp only [overlap, keepNonSingleton]
    rw [Nat.min_comm m n, keep_overlap_shape s t]

/-- Some dimension has at least two entries in both shapes. -/
def SharesExtent (s t : List Nat) : Prop := ∃ j : Nat, 2 ≤ s.getD j 0 ∧ 2 ≤ t.getD j 0

theorem keep_ne_nil : ∀ {s t : List Nat}, SharesExtent s t → keepNonSingleton (overlap s t) (overlap s t) ≠ []
  | [], t, h => by obtain ⟨j, h1, _⟩ := h; simp at h1
  | _ :: _, [], h => by obtain ⟨j, _, h1⟩ := h; simp at h1
  | n :: s, m :: t, ⟨j, h1, h2⟩ => by
    simp only [overlap, keepNonSingleton]
    cases j with
    | zero =>
      simp only [List.getD_cons_zero] at h1 h2
      rw [if_pos (by omega)]
      simp
    | succ j =>
      have ih := keep_ne_nil (s := s) (t := t) ⟨j, by simpa using h1, by simpa using h2⟩
      split
      · simp
      · exact ih

theorem positive_overlap : ∀ {s t : List Nat}, Positive s → Positive t → Positive (overlap s t)
  | [], _, _, _ => by intro n hn; simp [overlap] at hn
  | _ :: _, [], _, _ => by
    rw [overlap_nil]
    intro n hn
    have := List.eq_of_mem_replicate hn
    omega
  | n :: s, m :: t, h, h' => by
    intro k hk
    rw [overlap] at hk
    rcases List.mem_cons.mp hk with rfl | hk
    · have h1 := h n (by simp)
      have h2 := h' m (by simp)
      omega
    · exact positive_overlap (fun a ha => h a (List.mem_cons_of_mem _ ha)) (fun a ha => h' a (List.mem_cons_of_mem _ ha)) k hk

theorem inside_overlap : ∀ {s t : List Nat}, Positive s → Inside s (List.replicate s.length 0) (overlap s t)
  | [], _, _ => trivial
  | n :: s, [], h => by
    have h1 := h n (by simp)
    exact ⟨by omega, inside_overlap (fun a ha => h a (List.mem_cons_of_mem _ ha))⟩
  | n :: s, m :: t, h => by
    exact ⟨by omega, inside_overlap (fun a ha => h a (List.mem_cons_of_mem _ ha))⟩

theorem zeros_add : ∀ (n : Nat) (c : List Nat), c.length = n → List.zipWith (· + ·) (List.replicate n 0) c = c
  | 0, [], _ => rfl
  | 0, _ :: _, h => by simp at h
  | _ + 1, [], h => by simp at h
  | n + 1, x :: c, h => by simp [List.replicate_succ, zeros_add n c (by simpa using h)]

theorem positive_prod : ∀ {s : List Nat}, Positive s → 0 < s.prod
  | [], _ => by simp
  | n :: s, h => by
    rw [List.prod_cons]
    exact Nat.mul_pos (h n (by simp)) (positive_prod (fun a ha => h a (List.mem_cons_of_mem _ ha)))

theorem inShape_zeros : ∀ {s : List Nat}, Positive s → InShape s (List.replicate s.length 0)
  | [], _ => trivial
  | n :: s, h => ⟨h n (by simp), inShape_zeros (fun a ha => h a (List.mem_cons_of_mem _ ha))⟩

theorem dot_zeros : ∀ (st : List Nat) (n : Nat), dot st (List.replicate n 0) = 0
  | [], n => by cases n <;> rfl
  | u :: st, 0 => rfl
  | u :: st, n + 1 => by rw [List.replicate_succ, dot, dot_zeros st n]; omega

theorem dense_addr_inj {shape : List Nat} {o : Order} {c c' : List Nat} (h : InShape shape c) (h' : InShape shape c')
    (he : dot (stridesOf shape o) c = dot (stridesOf shape o) c') : c = c' := by
  have h1 := scan_of_inShape (o := o) h
  have h2 := scan_of_inShape (o := o) h'
  rw [he, h2] at h1
  exact (Option.some.inj h1).symm

theorem dense_addr_lt {shape : List Nat} {o : Order} {c : List Nat} (h : InShape shape c) : dot (stridesOf shape o) c < shape.prod := by
  have h1 := scan_of_inShape (o := o) h
  rw [← length_scan o]
  by_contra hc
  rw [List.getElem?_eq_none (by omega)] at h1
  simp at h1

namespace Arr

/-- An array with data: dense, with the right number of values. -/
def Ok {V : Type} (a : Arr V) (shape : List Nat) (o : Order) : Prop :=
  a.geometry = dense shape o o ∧ ∃ mem, a.data = some mem ∧ mem.length = shape.prod

theorem Ok.get_eq {V : Type} {a : Arr V} {shape : List Nat} {o : Order} {mem : List V} (hg : a.geometry = dense shape o o)
    (hm : a.data = some mem) {c : List Nat} (hc : InShape shape c) : a.get c = mem[dot (stridesOf shape o) c]? := by
  unfold get
  rw [hm]
  simp only
  have hv : a.view = ⟨0, dense shape o o⟩ := by rw [view, hg]
  rw [hv, View.at_eq mem (v := ⟨0, dense shape o o⟩) (inv_dense _ _ _) (by rw [dense_shape]; exact hc)]
  simp only [View.addr]
  rw [dense_strides, Nat.zero_add]

theorem get_mk {V : Type} (mem : List V) (shape : List Nat) (o : Order) {c : List Nat} (hc : InShape shape c) :
    (⟨some mem, dense shape o o⟩ : Arr V).get c = mem[dot (stridesOf shape o) c]? :=
  Ok.get_eq (a := ⟨some mem, dense shape o o⟩) rfl rfl hc

theorem dense_simple (shape : List Nat) (o : Order) : (dense shape o o).isSimple = true := by
  unfold dense; split
  · rfl
  · simp

theorem dense_size (shape : List Nat) (e i : Order) : (dense shape e i).size = shape.prod := by
  have := (inv_dense shape e i).size
  rwa [dense_shape] at this

theorem Ok.getIndex_eq {V : Type} {a : Arr V} {shape : List Nat} {o : Order} {mem : List V} (hg : a.geometry = dense shape o o)
    (hm : a.data = some mem) (i : Nat) : a.getIndex i = mem[i]? := by
  unfold getIndex
  rw [hm]
  simp only
  have hv : a.view = ⟨0, dense shape o o⟩ := by rw [view, hg]
  rw [hv, View.atIndex, indexToOffset, if_pos (dense_simple shape o), Option.bind_some, Nat.zero_add]

/-- `set` changes exactly one element. -/
theorem Ok.set_spec {V : Type} {a : Arr V} {shape : List Nat} {o : Order} (h : a.Ok shape o) {c : List Nat} (hc : InShape shape c) (x : V) :
    ∃ a', a.set c x = some a' ∧ a'.Ok shape o ∧ a'.get c = some x ∧ ∀ c', InShape shape c' → c' ≠ c → a'.get c' = a.get c' := by
  obtain ⟨hg, mem, hm, hl⟩ := h
  have hoff : a.geometry.coordinatesToOffset c = some (dot (stridesOf shape o) c) := by
    rw [hg, (inv_dense shape o o).toOffset (by rw [dense_shape]; exact hc), dense_strides]
  have hlt := dense_addr_lt (o := o) hc
  unfold set
  rw [hm, hoff]
  simp only
  rw [setAt_of_lt _ (by omega), Option.map_some]
  refine ⟨_, rfl, ⟨hg, _, rfl, by simp [hl]⟩, ?_, ?_⟩
  · rw [hg, get_mk _ _ _ hc, List.getElem?_set_self (by omega)]
  · intro c' hc' hne
    rw [Ok.get_eq hg hm hc']
    simp only [hg]
    rw [get_mk _ _ _ hc', List.getElem?_set_ne]
    intro he
    exact hne (dense_addr_inj hc' hc he.symm)

theorem Ok.get_some {V : Type} {a : Arr V} {shape : List Nat} {o : Order} (h : a.Ok shape o) {c : List Nat} (hc : InShape shape c) :
    ∃ x, a.get c = some x := by
  obtain ⟨hg, mem, hm, hl⟩ := h
  rw [Ok.get_eq hg hm hc]
  have hlt := dense_addr_lt (o := o) hc
  exact ⟨_, List.getElem?_eq_getElem (by omega)⟩

theorem make_spec {V : Type} (shape : List Nat) (value : V) (o : Order) : (make shape value o).Ok shape o ∧
    ∀ c, InShape shape c → (make shape value o).get c = some value := by
  have hl : (List.replicate (shape.foldl (· * ·) 1) value).length = shape.prod := by rw [List.length_replicate, foldl_mul_prod]
  refine ⟨⟨rfl, _, rfl, hl⟩, ?_⟩
  intro c hc
  rw [Ok.get_eq (a := make shape value o) rfl rfl hc]
  have hlt := dense_addr_lt (o := o) hc
  rw [List.getElem?_replicate, if_pos (by rw [foldl_mul_prod]; exact hlt)]

theorem resize_empty {V : Type} (zero : V) {newShape : List Nat} (hn : newShape ≠ []) (value : V) :
    ∃ a', (empty : Arr V).resize zero newShape value = some a' ∧ a'.Ok newShape defaultOrder ∧
      ∀ c, InShape newShape c → a'.get c = some value := by
  unfold resize
  rw [if_neg hn]
  exact ⟨_, rfl, make_spec newShape value defaultOrder⟩

/-- The new array holds the old values where both shapes have the cell, and the fill value elsewhere. -/
def Resized {V : Type} (a a' : Arr V) (shape newShape : List Nat) (value : V) : Prop :=
  ∀ c', InShape newShape c' →
    (∀ c, InShape shape c → SameCell c c' → a'.get c' = a.get c) ∧
    ((∀ c, InShape shape c → ¬SameCell c c') → a'.get c' = some value)

theorem sameCell_zeros (n : Nat) (c : List Nat) : SameCell (List.replicate n 0) c ↔ ∀ j : Nat, c.getD j 0 = 0 := by
  constructor
  · intro h j
    rw [← h j]
    by_cases hj : j < n
    · rw [List.getD_eq_getElem _ _ (by simpa using hj)]
      simp
    · rw [List.getD_eq_default _ _ (by simp; omega)]
  · intro h j
    rw [h j]
    by_cases hj : j < n
    · rw [List.getD_eq_getElem _ _ (by simpa using hj)]
      simp
    · rw [List.getD_eq_default _ _ (by simp; omega)]

theorem eq_zeros_of {c : List Nat} (h : ∀ j : Nat, c.getD j 0 = 0) : c = List.replicate c.length 0 := by
  apply list_ext_getD (by simp)
  intro i hi
  rw [h i, List.getD_eq_getElem _ _ (by simpa using hi)]
  simp

theorem prod_one_zeros : ∀ {s c : List Nat}, s.prod = 1 → InShape s c → c = List.replicate s.length 0
  | [], [], _, _ => rfl
  | [], _ :: _, _, h => by simp [InShape] at h
  | _ :: _, [], _, h => by simp [InShape] at h
  | n :: s, x :: c, h, hc => by
    rw [List.prod_cons] at h
    have h1 : n = 1 := Nat.eq_one_of_mul_eq_one_right h
    have h2 : s.prod = 1 := Nat.eq_one_of_mul_eq_one_left h
    have h3 := hc.1
    rw [List.length_cons, List.replicate_succ, ← prod_one_zeros h2 hc.2]
    congr 1
    omega

theorem resize_spec {V : Type} (zero : V) {a : Arr V} {shape newShape : List Nat} {o : Order} (h : a.Ok shape o) (hp : Positive shape)
    (hn : newShape ≠ []) (hpn : Positive newShape) (hs : newShape.prod = 1 ∨ shape = [] ∨ SharesExtent shape newShape) (value : V) :
    ∃ a', a.resize zero newShape value = some a' ∧ a'.Ok newShape o ∧ Resized a a' shape newShape value := by
  obtain ⟨hg, mem, hm, hl⟩ := h
  have hsh : a.geometry.shape = shape := by rw [hg, dense_shape]
  have hor : a.geometry.order = o := by rw [hg, dense_order]
  have hprod := positive_prod hp
  have hprodn := positive_prod hpn
  unfold resize resizeHelper
  rw [if_neg hn, hm]
  simp only
  rw [hor, foldl_mul_prod]
  unfold copyOverlap
  rw [hsh]
  by_cases h1 : newShape.prod = 1 ∨ shape.length = 0
  · rw [if_pos h1]
    have hm0 : 0 < mem.length := by omega
    rw [List.getElem?_eq_getElem hm0]
    simp only
    rw [setAt_of_lt _ (by simpa using hprodn), Option.map_some]
    refine ⟨_, rfl, ⟨rfl, _, rfl, by simp⟩, ?_⟩
    intro c' hc'
    have hz : ∀ c, InShape shape c → SameCell c c' → c = List.replicate shape.length 0 ∧ c' = List.replicate newShape.length 0 := by
      intro c hc hcc
      rcases h1 with h1 | h1
      · have e := prod_one_zeros h1 hc'
        refine ⟨?_, e⟩
        rw [e] at hcc
        have := eq_zeros_of ((sameCell_zeros _ _).mp hcc.symm)
        rwa [inShape_length hc] at this
      · have e0 : shape = [] := List.length_eq_zero_iff.mp h1
        subst e0
        have e : c = [] := by cases c with
          | nil => rfl
          | cons _ _ => simp [InShape] at hc
        subst e
        refine ⟨rfl, ?_⟩
        have := eq_zeros_of ((sameCell_zeros 0 c').mp hcc)
        rwa [inShape_length hc'] at this
    refine ⟨?_, ?_⟩
    · intro c hc hcc
      obtain ⟨e1, e2⟩ := hz c hc hcc
      rw [get_mk _ _ _ hc', Ok.get_eq hg hm hc, e1, e2, dot_zeros, dot_zeros, List.getElem?_set_self (by simpa using hprodn),
        List.getElem?_eq_getElem hm0]
    · intro hno
      have hne : dot (stridesOf newShape o) c' ≠ 0 := by
        intro h0
        have h2 : c' = List.replicate newShape.length 0 :=
          dense_addr_inj (o := o) hc' (inShape_zeros hpn) (by rw [h0, dot_zeros])
        apply hno _ (inShape_zeros hp)
        rw [h2]
        exact (sameCell_zeros _ _).mpr (fun j => by
          by_cases hj : j < newShape.length
          · rw [List.getD_eq_getElem _ _ (by simpa using hj)]; simp
          · rw [List.getD_eq_default _ _ (by simp; omega)])
      rw [get_mk _ _ _ hc', List.getElem?_set_ne (Ne.symm hne), List.getElem?_replicate,
        if_pos (dense_addr_lt hc')]
  · rw [if_neg h1]
    rw [not_or] at h1
    have hshare : SharesExtent shape newShape := by
      rcases hs with hs | hs | hs
      · exact absurd hs h1.1
      · exact absurd (by simp [hs]) h1.2
      · exact hs
    simp only
    rw [overlap_eq, zipWith_min_comm, overlap_eq]
    have hv : a.view = ⟨0, dense shape o o⟩ := by rw [view, hg]
    rw [hv, hor]
    have i1 : (⟨0, dense shape o o⟩ : View).geometry.Inv := inv_dense _ _ _
    have i2 : (⟨0, dense newShape o o⟩ : View).geometry.Inv := inv_dense _ _ _
    obtain ⟨w1, hw1, inv1, sh1, or1, ad1⟩ := View.view_spec i1 (start := List.replicate shape.length 0) (shape := overlap shape newShape)
      (by simp only [dense_shape]; exact inside_overlap hp) o
    obtain ⟨w2, hw2, inv2, sh2, or2, ad2⟩ := View.view_spec i2 (start := List.replicate newShape.length 0)
      (shape := overlap newShape shape) (by simp only [dense_shape]; exact inside_overlap hpn) o
    rw [hw1, hw2]
    simp only
    have hsq1 : w1.squeeze.geometry.shape = keepNonSingleton (overlap shape newShape) (overlap shape newShape) := by
      rw [← sh1]; exact squeeze_shape _
    have hsq2 : w2.squeeze.geometry.shape = keepNonSingleton (overlap newShape shape) (overlap newShape shape) := by
      rw [← sh2]; exact squeeze_shape _
    have a1 : ∀ c, InShape (overlap shape newShape) c → w1.addr c = dot (stridesOf shape o) c := by
      intro c hc
      rw [ad1 c hc, zeros_add _ _ (by rw [inShape_length hc, overlap_length])]
      simp only [View.addr, dense_strides, Nat.zero_add]
    have a2 : ∀ c, InShape (overlap newShape shape) c → w2.addr c = dot (stridesOf newShape o) c := by
      intro c hc
      rw [ad2 c hc, zeros_add _ _ (by rw [inShape_length hc, overlap_length])]
      simp only [View.addr, dense_strides, Nat.zero_add]
    obtain ⟨f1, hf1, _⟩ := View.embeds_squeeze inv1
    obtain ⟨f2, hf2, hj2⟩ := View.embeds_squeeze inv2
    rw [sh1] at hf1
    rw [sh2] at hf2
    obtain ⟨mem', hc1, hc2, hc3, hc4⟩ := copyView_spec mem (List.replicate newShape.prod value) w1.squeeze w2.squeeze
      (inv_squeeze inv1) (inv_squeeze inv2) (by rw [hsq1, hsq2, keep_overlap_shape])
      (by
        have e1 : w1.squeeze.geometry.order = o := by rw [← or1]; exact squeeze_order _
        have e2 : w2.squeeze.geometry.order = o := by rw [← or2]; exact squeeze_order _
        rw [e1, e2])
      (by
        have := (inv_squeeze inv1).size
        have e : w1.squeeze.geometry.size = (overlap shape newShape).prod := by
          rw [View.squeeze, this, squeeze_shape, prod_keep, sh1]
        rw [e]
        exact positive_prod (positive_overlap hp hpn))
      (Or.inr (by rw [hsq1]; exact keep_ne_nil hshare))
      (by
        intro c hc
        obtain ⟨h2, h3⟩ := hf1 c hc
        rw [h3, a1 _ h2, hl]
        exact dense_addr_lt (overlap_sub h2 hp))
      (by
        intro c hc
        obtain ⟨h2, h3⟩ := hf2 c hc
        rw [h3, a2 _ h2, List.length_replicate]
        exact dense_addr_lt (overlap_sub h2 hpn))
      (by
        intro c c' hc hc' he
        obtain ⟨h2, h3⟩ := hf2 c hc
        obtain ⟨h2', h3'⟩ := hf2 c' hc'
        rw [h3, h3', a2 _ h2, a2 _ h2'] at he
        exact hj2 c c' hc hc' (dense_addr_inj (overlap_sub h2 hpn) (overlap_sub h2' hpn) he))
    rw [hc1, Option.map_some]
    refine ⟨_, rfl, ⟨rfl, mem', rfl, by rw [hc2, List.length_replicate]⟩, ?_⟩
    intro c' hc'
    rw [get_mk _ _ _ hc']
    refine ⟨?_, ?_⟩
    · intro c hc hcc
      have o1 := inShape_overlap hc hc' hcc
      have o2 := inShape_overlap hc' hc hcc.symm
      have hk := keep_overlap (inShape_length hc) (inShape_length hc') hcc
      have s1 := View.squeeze_addr inv1 (c := c) (by rw [sh1]; exact o1)
      have s2 := View.squeeze_addr inv2 (c := c') (by rw [sh2]; exact o2)
      rw [sh1] at s1
      rw [sh2] at s2
      have h3 := hc3 (keepNonSingleton (overlap newShape shape) c') (by rw [hsq2]; exact inShape_keep o2)
      rw [← hk, s1] at h3
      rw [hk, s2, a2 _ o2, a1 _ o1] at h3
      rw [h3, Ok.get_eq hg hm hc]
    · intro hno
      rw [hc4, List.getElem?_replicate, if_pos (dense_addr_lt hc')]
      intro c hc he
      obtain ⟨h2, h3⟩ := hf2 c hc
      rw [h3, a2 _ h2] at he
      have e := dense_addr_inj (overlap_sub h2 hpn) hc' he
      rw [e] at h2
      obtain ⟨d, hd1, hd2⟩ := overlap_cell h2 hp
      exact hno d hd1 hd2

theorem resize_scalar {V : Type} (zero : V) {a : Arr V} {shape : List Nat} {o : Order} (h : a.Ok shape o) (hp : Positive shape) (value : V) :
    ∃ a', a.resize zero [] value = some a' ∧ a'.Ok [] defaultOrder ∧ Resized a a' shape [] value := by
  obtain ⟨hg, mem, hm, hl⟩ := h
  have hprod := positive_prod hp
  have hm0 : 0 < mem.length := by omega
  have hsz : a.geometry.size > 0 := by rw [hg, dense_size]; exact hprod
  unfold resize
  rw [if_pos rfl, if_pos hsz, Ok.getIndex_eq hg hm, List.getElem?_eq_getElem hm0, Option.map_some]
  refine ⟨_, rfl, ⟨rfl, _, rfl, rfl⟩, ?_⟩
  intro c' hc'
  have e : c' = [] := by cases c' with
    | nil => rfl
    | cons _ _ => simp [InShape] at hc'
  subst e
  have hget : (scalar mem[0] defaultOrder).get [] = some mem[0] := by
    exact get_mk [mem[0]] [] defaultOrder (c := []) trivial
  rw [hget]
  refine ⟨?_, ?_⟩
  · intro c hc hcc
    have := eq_zeros_of ((sameCell_zeros 0 c).mp hcc.symm)
    rw [Ok.get_eq hg hm hc, this, dot_zeros, List.getElem?_eq_getElem hm0]
  · intro hno
    exact absurd ((sameCell_zeros _ _).mpr (by simp)) (hno _ (inShape_zeros hp))

/-! ### copies of views -/

theorem readLoop_spec {V : Type} (mem : List V) (v : View) (h : v.geometry.Inv) (hd : v.geometry.isSimple = true ∨ v.geometry.shape ≠ [])
    (hb : ∀ c, InShape v.geometry.shape c → v.addr c < mem.length) : ∀ (n k : Nat) (it : Iter), Iter.At v.geometry k it →
    k + n = v.geometry.size → 0 < n →
    ∃ d, readLoop mem v n it = some d ∧ d.length = n ∧
      ∀ j c, (scan v.geometry.order v.geometry.shape)[k + j]? = some c → d[j]? = mem[v.addr c]?
  | 0, _, _, _, _, h => by omega
  | n + 1, k, it, ha, hk, _ => by
    obtain ⟨c, hc⟩ := Iter.scan_some h (i := k) (by omega)
    have hlt := hb c (scan_spec hc).1
    have hder := ha.deref mem v.base hc
    have hv : (View.mk v.base v.geometry) = v := rfl
    rw [hv, List.getElem?_eq_getElem hlt] at hder
    by_cases hn : n = 0
    · subst hn
      obtain ⟨it', h1, _⟩ := Iter.next_last h ha (by omega) hd
      refine ⟨[mem[v.addr c]], ?_, rfl, ?_⟩
      · rw [readLoop, hder, h1]; rfl
      · intro j d hj
        by_cases hj0 : j = 0
        · subst hj0
          rw [Nat.add_zero, hc] at hj
          injection hj with hj
          subst hj
          rw [List.getElem?_eq_getElem hlt]; rfl
        · rw [List.getElem?_eq_none (by rw [length_scan, ← h.size]; omega)] at hj
          simp at hj
    · obtain ⟨it', h1, h2⟩ := Iter.next_spec h ha (by omega)
      obtain ⟨d, h3, h4, h5⟩ := readLoop_spec mem v h hd hb n (k + 1) it' h2 (by omega) (by omega)
      refine ⟨mem[v.addr c] :: d, ?_, by simp [h4], ?_⟩
      · rw [readLoop, hder, h1]
        simp only
        rw [h3]; rfl
      · intro j e hj
        cases j with
        | zero =>
          rw [Nat.add_zero, hc] at hj
          injection hj with hj
          subst hj
          rw [List.getElem?_eq_getElem hlt]; rfl
        | succ j =>
          rw [List.getElem?_cons_succ]
          exact h5 j e (by rw [← hj]; congr 1; omega)

theorem ofView_spec {V : Type} (mem : List V) (v : View) (h : v.geometry.Inv)
    (hd : v.geometry.isSimple = true ∨ v.geometry.shape ≠ []) (hpos : 0 < v.geometry.size)
    (hb : ∀ c, InShape v.geometry.shape c → v.addr c < mem.length) :
    ∃ a, ofView mem v = some a ∧ a.Ok v.geometry.shape v.geometry.order ∧
      ∀ c, InShape v.geometry.shape c → a.get c = v.at_ mem c := by
  have hgeo : (⟨v.geometry.shape, v.geometry.shapeStrides, v.geometry.shapeStrides, v.geometry.size, v.geometry.order, true⟩ : Geometry) =
      dense v.geometry.shape v.geometry.order v.geometry.order := by
    have e1 := h.size
    have e2 := h.shapeStrides
    unfold dense
    split
    · rename_i hs
      rw [hs] at e1 e2
      rcases hg : v.geometry with ⟨s, ss, st, sz, o, si⟩
      rw [hg] at e1 e2 hs
      simp only at e1 e2 hs ⊢
      subst hs
      subst e1
      rw [e2]
      cases o <;> simp [stridesOf, stridesLoop]
    · rw [e1, e2, foldl_mul_prod]
      simp
  have key : ∀ d : List V, d.length = v.geometry.size →
      (∀ (j : Nat) (c : List Nat), (scan v.geometry.order v.geometry.shape)[j]? = some c → d[j]? = mem[v.addr c]?) →
      Ok ⟨some d, ⟨v.geometry.shape, v.geometry.shapeStrides, v.geometry.shapeStrides, v.geometry.size, v.geometry.order, true⟩⟩ v.geometry.shape v.geometry.order ∧
      ∀ c, InShape v.geometry.shape c →
        Arr.get ⟨some d, ⟨v.geometry.shape, v.geometry.shapeStrides, v.geometry.shapeStrides, v.geometry.size, v.geometry.order, true⟩⟩ c = v.at_ mem c := by
    intro d hdl hdv
    refine ⟨⟨hgeo, d, rfl, by rw [hdl, h.size]⟩, ?_⟩
    intro c hc
    rw [Ok.get_eq hgeo rfl hc, View.at_eq mem h hc]
    exact hdv _ c (scan_of_inShape hc)
  unfold ofView
  simp only
  rw [if_neg (by omega)]
  by_cases hs : v.geometry.isSimple = true
  · rw [if_pos hs]
    have hlast : v.base + v.geometry.size ≤ mem.length := by
      obtain ⟨c, hc⟩ := Iter.scan_some h (i := v.geometry.size - 1) (by omega)
      have := hb c (scan_spec hc).1
      rw [View.addr, Iter.simple_dot h hs hc] at this
      omega
    have hlen : ((mem.drop v.base).take v.geometry.size).length = v.geometry.size := by
      rw [List.length_take, List.length_drop]
      omega
    rw [if_pos hlen]
    refine ⟨_, rfl, key _ hlen ?_⟩
    intro j c hc
    have hj : j < v.geometry.size := by
      by_contra hx
      rw [List.getElem?_eq_none (by rw [length_scan, ← h.size]; omega)] at hc
      simp at hc
    rw [List.getElem?_take_of_lt hj, List.getElem?_drop, View.addr, Iter.simple_dot h hs hc]
  · rw [if_neg hs]
    obtain ⟨it, h1, h2⟩ := Iter.make_spec h hd (i := 0) hpos
    obtain ⟨d, h3, h4, h5⟩ := readLoop_spec mem v h hd hb v.geometry.size 0 it h2 (by omega) hpos
    rw [h1]
    simp only
    rw [h3]
    refine ⟨_, rfl, key d h4 ?_⟩
    intro j c hc
    exact h5 j c (by rwa [Nat.zero_add])

end Arr
end Marray
end OpenGM
