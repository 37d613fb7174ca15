import Verif.Lemmas.MarrayArr
import Verif.Lemmas.MarrayPrev
/-
Properties C34, C35, C36, C53, C54, C55: multi-dimensional arrays and views.

`IsView n v` says that `v` can be obtained from the view of a dense array of `n` values by any sequence of sub-views, bound views,
permutations, transpositions, shifts, squeezes and reshapes that respect the documented preconditions. `IsArr a` says that `a` can be
obtained by constructing, writing, resizing and copying views.
-/
namespace OpenGM
open Spec
namespace Marray
open Geometry

/-- Views on a memory block of `n` values that a program can make. -/
inductive IsView (n : Nat) : View → Prop
  | dense (shape : List Nat) (external internal : Order) : shape.prod = n → IsView n ⟨0, .dense shape external internal⟩
  | view {v w : View} {start shape : List Nat} {o : Order} : IsView n v → Inside v.geometry.shape start shape →
      v.view start shape o = some w → IsView n w
  | boundView {v w : View} {j x m : Nat} : IsView n v → v.geometry.shape[j]? = some m → x < m → v.boundView j x = some w → IsView n w
  | permute {v : View} {g : Geometry} {p : List Nat} : IsView n v → v.geometry.shape ≠ [] → p.Perm (List.range v.geometry.shape.length) →
      v.geometry.permute p = some g → IsView n ⟨v.base, g⟩
  | transposeTwo {v : View} {g : Geometry} {j k : Nat} : IsView n v → j < v.geometry.shape.length → k < v.geometry.shape.length →
      v.geometry.transposeTwo j k = some g → IsView n ⟨v.base, g⟩
  | transposeAll {v : View} {g : Geometry} : IsView n v → v.geometry.shape ≠ [] → v.geometry.transposeAll = some g → IsView n ⟨v.base, g⟩
  | shift {v : View} {g : Geometry} {k : Int} : IsView n v → v.geometry.shape ≠ [] → v.geometry.shift k = some g → IsView n ⟨v.base, g⟩
  | squeeze {v : View} : IsView n v → IsView n v.squeeze
  | reshape {v : View} {shape : List Nat} : IsView n v → v.geometry.isSimple = true → shape.prod = v.geometry.size →
      IsView n (v.reshape shape)

/-- Invariant of all views: geometry invariant, elements inside the block, distinct coordinates at distinct elements. -/
theorem IsView.ok {n : Nat} {v : View} (h : IsView n v) : v.geometry.Inv ∧
    (∀ c, InShape v.geometry.shape c → v.addr c < n) ∧
    ∀ c c', InShape v.geometry.shape c → InShape v.geometry.shape c' → v.addr c = v.addr c' → c = c' := by
  have emb : ∀ {v w : View}, View.Embeds w v → w.geometry.Inv →
      (v.geometry.Inv ∧ (∀ c, InShape v.geometry.shape c → v.addr c < n) ∧
        ∀ c c', InShape v.geometry.shape c → InShape v.geometry.shape c' → v.addr c = v.addr c' → c = c') →
      (w.geometry.Inv ∧ (∀ c, InShape w.geometry.shape c → w.addr c < n) ∧
        ∀ c c', InShape w.geometry.shape c → InShape w.geometry.shape c' → w.addr c = w.addr c' → c = c') := by
    rintro v w ⟨f, hf, hinj⟩ hw ⟨_, h2, h3⟩
    refine ⟨hw, ?_, ?_⟩
    · intro c hc
      obtain ⟨h4, h5⟩ := hf c hc
      rw [h5]
      exact h2 _ h4
    · intro c c' hc hc' he
      obtain ⟨h4, h5⟩ := hf c hc
      obtain ⟨h4', h5'⟩ := hf c' hc'
      rw [h5, h5'] at he
      exact hinj c c' hc hc' (h3 _ _ h4 h4' he)
  induction h with
  | dense shape e i hs =>
    refine ⟨inv_dense _ _ _, ?_, ?_⟩
    · intro c hc
      simp only [dense_shape] at hc
      simp only [View.addr, dense_strides, Nat.zero_add]
      rw [← hs]
      exact dense_addr_lt hc
    · intro c c' hc hc' he
      simp only [dense_shape] at hc hc'
      simp only [View.addr, dense_strides, Nat.zero_add] at he
      exact dense_addr_inj hc hc' he
  | @view v w start shape o _ hi hw ih =>
    obtain ⟨w', h1, h2, h3, _, h5⟩ := View.view_spec ih.1 hi o
    rw [hw] at h1
    injection h1 with h1
    subst h1
    refine emb ⟨fun c => List.zipWith (· + ·) start c, ?_, ?_⟩ h2 ih
    · intro c hc
      rw [h3] at hc
      exact ⟨inside_add hi hc, h5 c hc⟩
    · intro c c' hc hc' he
      rw [h3] at hc hc'
      obtain ⟨l1, l2⟩ := hi.lengths
      exact zipWith_add_inj (by rw [Walkers.inShape_length hc, l1, l2]) (by rw [Walkers.inShape_length hc', l1, l2]) he
  | @boundView v w j x m _ hj hx hw ih =>
    obtain ⟨w', h1, h2, h3, _, h5⟩ := View.boundView_spec ih.1 hj hx
    rw [hw] at h1
    injection h1 with h1
    subst h1
    refine emb ⟨fun c => insertAt j x c, ?_, ?_⟩ h2 ih
    · intro c hc
      refine ⟨((inShape_insertAt hj).mpr ⟨by rw [← h3]; exact hc, hx⟩).1, h5 c hc⟩
    · intro c c' hc hc' he
      simp only [insertAt] at he
      have hl : c.length = c'.length := by rw [Walkers.inShape_length hc, Walkers.inShape_length hc']
      have h6 := List.append_inj he (by simp [hl])
      have h7 : c.drop j = c'.drop j := (List.cons.inj h6.2).2
      rw [← List.take_append_drop j c, ← List.take_append_drop j c', h6.1, h7]
  | @permute v g p _ hd hp hg ih =>
    obtain ⟨g', h1, h2⟩ := permute_spec ih.1 hd hp
    rw [hg] at h1
    injection h1 with h1
    subst h1
    exact emb (View.embeds_permuted ih.1 hp h2) h2.inv ih
  | @transposeTwo v g j k _ hj hk hg ih =>
    obtain ⟨g', h1, h2⟩ := transposeTwo_spec ih.1 hj hk
    rw [hg] at h1
    injection h1 with h1
    subst h1
    exact emb (View.embeds_permuted ih.1 (swapped_perm hj hk) h2) h2.inv ih
  | @transposeAll v g _ hd hg ih =>
    obtain ⟨g', h1, h2⟩ := transposeAll_spec ih.1 hd
    rw [hg] at h1
    injection h1 with h1
    subst h1
    exact emb (View.embeds_permuted ih.1 (List.reverse_perm _) h2) h2.inv ih
  | @shift v g k _ hd hg ih =>
    obtain ⟨g', h1, h2⟩ := shift_spec ih.1 hd k
    rw [hg] at h1
    injection h1 with h1
    subst h1
    exact emb (View.embeds_permuted ih.1 (shifted_perm (List.length_pos_iff.mpr hd) k) h2) h2.inv ih
  | @squeeze v _ ih => exact emb (View.embeds_squeeze ih.1) (inv_squeeze ih.1) ih
  | @reshape v shape _ hs hp ih => exact emb (View.embeds_reshape ih.1 hs hp) (inv_dense _ _ _) ih

/-! ### C34 -/

/-- The tuples below a shape in the order of the scalar index: each tuple once, `size` of them. -/
theorem C34_scan {n : Nat} {v : View} (h : IsView n v) :
    (scan v.geometry.order v.geometry.shape).length = v.geometry.size ∧ (scan v.geometry.order v.geometry.shape).Nodup ∧
    ∀ c, c ∈ scan v.geometry.order v.geometry.shape ↔ InShape v.geometry.shape c := by
  refine ⟨by rw [length_scan, h.ok.1.size], ?_, ?_⟩
  · cases v.geometry.order with
    | lastMajor => exact nodup_allTuples _
    | firstMajor =>
      simp only [scan, Walkers.allTuplesLast_eq]
      exact (nodup_allTuples _).map List.reverse_injective
  · intro c
    constructor
    · intro hc
      obtain ⟨i, hi, rfl⟩ := List.getElem_of_mem hc
      exact (scan_spec (List.getElem?_eq_getElem hi)).1
    · intro hc
      exact List.mem_of_getElem? (scan_of_inShape hc)

/-- C34: for every view, the `i`-th tuple in scalar order has index `i`, the index `i` gives back this tuple, and index and tuple
have the same offset. With `C34_scan` the two conversions are inverse bijections between the tuples and `0 .. size-1`. -/
theorem C34_index_coordinates {n : Nat} {v : View} (h : IsView n v) {i : Nat} {c : List Nat}
    (hc : (scan v.geometry.order v.geometry.shape)[i]? = some c) :
    v.geometry.coordinatesToIndex c = some i ∧ (v.geometry.shape ≠ [] → v.geometry.indexToCoordinates i = some c) ∧
    v.geometry.indexToOffset i = v.geometry.coordinatesToOffset c := by
  have hi := h.ok.1
  refine ⟨hi.toIndex hc, fun hd => hi.toCoordinates hd hc, ?_⟩
  rw [hi.indexOffset hc, hi.toOffset (scan_spec hc).1]

/-- C34: every coordinate tuple has an offset, it lies inside the memory block, and different tuples have different offsets. -/
theorem C34_offsets {n : Nat} {v : View} (h : IsView n v) {c : List Nat} (hc : InShape v.geometry.shape c) :
    ∃ k, v.geometry.coordinatesToOffset c = some k ∧ v.base + k < n ∧
      ∀ c', InShape v.geometry.shape c' → v.geometry.coordinatesToOffset c' = some k → c' = c := by
  obtain ⟨h1, h2, h3⟩ := h.ok
  refine ⟨_, h1.toOffset hc, h2 c hc, ?_⟩
  intro c' hc' he
  rw [h1.toOffset hc'] at he
  apply h3 c' c hc' hc
  simp only [View.addr]
  rw [Option.some.inj he]

example : IsView 24 ⟨0, .dense [2, 3, 4] .lastMajor .firstMajor⟩ ∧
    (scan .firstMajor [2, 3, 4])[13]? = some [1, 0, 1] ∧
    (Geometry.dense [2, 3, 4] .lastMajor .firstMajor).indexToOffset 13 = some 7 := ⟨.dense _ _ _ rfl, by decide, by decide⟩

/-! ### C35 -/

/-- C35, permute: the element at `c` is found at `c[p[0]], c[p[1]], ...`, and every coordinate of the permuted view is of this form. -/
theorem C35_permute {n : Nat} {v : View} (h : IsView n v) (hd : v.geometry.shape ≠ []) {p : List Nat}
    (hp : p.Perm (List.range v.geometry.shape.length)) :
    ∃ g, v.geometry.permute p = some g ∧ IsView n ⟨v.base, g⟩ ∧
      (∀ (V : Type) (mem : List V) (c : List Nat), InShape v.geometry.shape c → InShape g.shape (p.map (fun i => c.getD i 0)) ∧
        (View.mk v.base g).at_ mem (p.map (fun i => c.getD i 0)) = v.at_ mem c) ∧
      ∀ c', InShape g.shape c' → ∃ c, InShape v.geometry.shape c ∧ c' = p.map (fun i => c.getD i 0) := by
  obtain ⟨g, h1, h2⟩ := permute_spec h.ok.1 hd hp
  refine ⟨g, h1, .permute h hd hp h1, ?_, ?_⟩
  · intro V mem c hc
    have h3 := (inShape_permuted hp h2 (Walkers.inShape_length hc)).mpr hc
    refine ⟨h3, ?_⟩
    rw [View.at_eq mem (v := ⟨v.base, g⟩) h2.inv h3, View.at_eq mem h.ok.1 hc]
    simp only [View.addr]
    rw [dot_permuted h.ok.1 hp h2 (Walkers.inShape_length hc)]
  · intro c' hc'
    have hl : p.length = v.geometry.shape.length := by simpa using hp.length_eq
    obtain ⟨c, h3, h4⟩ := unpermute hp (c' := c') (by rw [Walkers.inShape_length hc', h2.shape, List.length_map, hl])
    exact ⟨c, (inShape_permuted hp h2 h3).mp (by rw [h4]; exact hc'), h4.symm⟩

theorem permuted_elements {n : Nat} {v : View} (h : IsView n v) {p : List Nat} {g : Geometry}
    (hp : p.Perm (List.range v.geometry.shape.length)) (h2 : IsPermuted p v.geometry g) {V : Type} (mem : List V) {c : List Nat}
    (hc : InShape v.geometry.shape c) :
    InShape g.shape (p.map (fun i => c.getD i 0)) ∧
      (View.mk v.base g).at_ mem (p.map (fun i => c.getD i 0)) = v.at_ mem c := by
  have h3 := (inShape_permuted hp h2 (Walkers.inShape_length hc)).mpr hc
  refine ⟨h3, ?_⟩
  rw [View.at_eq mem (v := ⟨v.base, g⟩) h2.inv h3, View.at_eq mem h.ok.1 hc]
  simp only [View.addr]
  rw [dot_permuted h.ok.1 hp h2 (Walkers.inShape_length hc)]

/-- C35, transpose(j, k): entries `j` and `k` of the coordinate are exchanged. -/
theorem C35_transpose_two {n : Nat} {v : View} (h : IsView n v) {j k : Nat} (hj : j < v.geometry.shape.length)
    (hk : k < v.geometry.shape.length) :
    ∃ g, v.geometry.transposeTwo j k = some g ∧ IsView n ⟨v.base, g⟩ ∧
      ∀ (V : Type) (mem : List V) (c c' : List Nat), InShape v.geometry.shape c → c'.length = c.length →
        c'[j]? = c[k]? → c'[k]? = c[j]? → (∀ i : Nat, i ≠ j → i ≠ k → c'[i]? = c[i]?) →
        InShape g.shape c' ∧ (View.mk v.base g).at_ mem c' = v.at_ mem c := by
  obtain ⟨g, h1, h2⟩ := transposeTwo_spec h.ok.1 hj hk
  refine ⟨g, h1, .transposeTwo h hj hk h1, ?_⟩
  intro V mem c c' hc hl hcj hck hco
  have e : c' = (swapped v.geometry.shape.length j k).map (fun i => c.getD i 0) := by
    have hlc := Walkers.inShape_length hc
    apply List.ext_getElem?
    intro i
    by_cases hi : i < v.geometry.shape.length
    · rw [swapped, List.getElem?_map, List.getElem?_map, List.getElem?_range hi]
      simp only [Option.map_some]
      have hg : ∀ m, m < v.geometry.shape.length → c[m]? = some (c.getD m 0) := by
        intro m hm
        rw [List.getElem?_eq_getElem (by omega), List.getD_eq_getElem _ _ (by omega)]
      by_cases e1 : i = j
      · subst e1
        rw [if_pos rfl, hcj, hg k hk]
      · rw [if_neg e1]
        by_cases e2 : i = k
        · subst e2
          rw [if_pos rfl, hck, hg j hj]
        · rw [if_neg e2, hco i e1 e2, hg i hi]
    · rw [List.getElem?_eq_none (by omega), List.getElem?_eq_none (by simp [swapped]; omega)]
  rw [e]
  exact permuted_elements h (swapped_perm hj hk) h2 mem hc

/-- C35, transpose(): the coordinate is reversed. -/
theorem C35_transpose_all {n : Nat} {v : View} (h : IsView n v) (hd : v.geometry.shape ≠ []) :
    ∃ g, v.geometry.transposeAll = some g ∧ IsView n ⟨v.base, g⟩ ∧
      ∀ (V : Type) (mem : List V) (c : List Nat), InShape v.geometry.shape c →
        InShape g.shape c.reverse ∧ (View.mk v.base g).at_ mem c.reverse = v.at_ mem c := by
  obtain ⟨g, h1, h2⟩ := transposeAll_spec h.ok.1 hd
  refine ⟨g, h1, .transposeAll h hd h1, ?_⟩
  intro V mem c hc
  rw [reverse_eq_map c, Walkers.inShape_length hc]
  exact permuted_elements h (List.reverse_perm _) h2 mem hc

/-- C35, shift(k): entry `j` of the new coordinate is entry `(j - k) mod dimension` of the old one. -/
theorem C35_shift {n : Nat} {v : View} (h : IsView n v) (hd : v.geometry.shape ≠ []) (k : Int) :
    ∃ g, v.geometry.shift k = some g ∧ IsView n ⟨v.base, g⟩ ∧
      ∀ (V : Type) (mem : List V) (c c' : List Nat), InShape v.geometry.shape c → c'.length = c.length →
        (∀ j i : Nat, j < c.length → i < c.length → (c.length : Int) ∣ (j : Int) - k - i → c'[j]? = c[i]?) →
        InShape g.shape c' ∧ (View.mk v.base g).at_ mem c' = v.at_ mem c := by
  obtain ⟨g, h1, h2⟩ := shift_spec h.ok.1 hd k
  refine ⟨g, h1, .shift h hd h1, ?_⟩
  intro V mem c c' hc hl hco
  have hlc := Walkers.inShape_length hc
  have hpos : 0 < v.geometry.shape.length := List.length_pos_iff.mpr hd
  have e : c' = (shifted v.geometry.shape.length k).map (fun i => c.getD i 0) := by
    apply List.ext_getElem?
    intro j
    by_cases hj : j < v.geometry.shape.length
    · rw [shifted, List.getElem?_map, List.getElem?_map, List.getElem?_range hj]
      simp only [Option.map_some]
      have r1 := Int.emod_nonneg ((j : Int) - k) (by omega : (v.geometry.shape.length : Int) ≠ 0)
      have r2 := Int.emod_lt_of_pos ((j : Int) - k) (by omega : (0 : Int) < v.geometry.shape.length)
      rw [hco j (((j : Int) - k) % (v.geometry.shape.length : Int)).toNat (by omega) (by omega) (by
        rw [Int.toNat_of_nonneg r1, hlc]
        have := Int.emod_add_mul_ediv ((j : Int) - k) v.geometry.shape.length
        exact ⟨((j : Int) - k) / v.geometry.shape.length, by omega⟩)]
      rw [List.getElem?_eq_getElem (by omega), List.getD_eq_getElem _ _ (by omega)]
    · rw [List.getElem?_eq_none (by omega), List.getElem?_eq_none (by simp [shifted]; omega)]
  rw [e]
  exact permuted_elements h (shifted_perm hpos k) h2 mem hc

/-- C35, boundView(j, x): the view without dimension `j` shows the elements with coordinate `x` in dimension `j`. -/
theorem C35_boundView {n : Nat} {v : View} (h : IsView n v) {j x m : Nat} (hj : v.geometry.shape[j]? = some m) (hx : x < m) :
    ∃ w, v.boundView j x = some w ∧ IsView n w ∧ w.geometry.shape = v.geometry.shape.eraseIdx j ∧
      ∀ (V : Type) (mem : List V) (c : List Nat), InShape w.geometry.shape c → InShape v.geometry.shape (insertAt j x c) ∧
        w.at_ mem c = v.at_ mem (insertAt j x c) := by
  obtain ⟨w, h1, h2, h3, _, h5⟩ := View.boundView_spec h.ok.1 hj hx
  refine ⟨w, h1, .boundView h hj hx h1, h3, ?_⟩
  intro V mem c hc
  have h6 := ((inShape_insertAt hj).mpr ⟨by rw [← h3]; exact hc, hx⟩).1
  refine ⟨h6, ?_⟩
  rw [View.at_eq mem h2 hc, View.at_eq mem h.ok.1 h6, h5 c hc]

/-- C35, squeeze: dimensions with one entry disappear, the other entries of the coordinate stay. -/
theorem C35_squeeze {n : Nat} {v : View} (h : IsView n v) :
    v.squeeze.geometry.shape = v.geometry.shape.filter (· ≠ 1) ∧
    ∀ (V : Type) (mem : List V) (c : List Nat), InShape v.geometry.shape c →
      InShape v.squeeze.geometry.shape (((v.geometry.shape.zip c).filter (fun e => e.1 ≠ 1)).map (fun e => e.2)) ∧
      v.squeeze.at_ mem (((v.geometry.shape.zip c).filter (fun e => e.1 ≠ 1)).map (fun e => e.2)) = v.at_ mem c := by
  have hk : ∀ (s c : List Nat), keepNonSingleton s c = ((s.zip c).filter (fun e => e.1 ≠ 1)).map (fun e => e.2) := by
    intro s
    induction s with
    | nil => intro c; simp [keepNonSingleton]
    | cons n s ih =>
      intro c
      cases c with
      | nil => simp [keepNonSingleton]
      | cons x c =>
        simp only [keepNonSingleton, List.zip_cons_cons, List.filter_cons]
        by_cases hn : n = 1
        · simp [hn, ih c]
        · simp [hn, ih c]
  have hkk : ∀ s : List Nat, keepNonSingleton s s = s.filter (· ≠ 1) := by
    intro s
    induction s with
    | nil => simp [keepNonSingleton]
    | cons n s ih =>
      simp only [keepNonSingleton, List.filter_cons]
      by_cases hn : n = 1
      · simp [hn, ih]
      · simp [hn, ih]
  have hsh : v.squeeze.geometry.shape = keepNonSingleton v.geometry.shape v.geometry.shape := squeeze_shape _
  refine ⟨by rw [hsh, hkk], ?_⟩
  intro V mem c hc
  rw [← hk]
  have h1 : InShape v.squeeze.geometry.shape (keepNonSingleton v.geometry.shape c) := by rw [hsh]; exact inShape_keep hc
  refine ⟨h1, ?_⟩
  rw [View.at_eq mem (inv_squeeze h.ok.1) h1, View.at_eq mem h.ok.1 hc, View.squeeze_addr h.ok.1 hc]

/-- C35, sub-view: the element at `c` of the sub-view is the element at `start + c` of the view. -/
theorem C35_view {n : Nat} {v : View} (h : IsView n v) {start shape : List Nat} (hi : Inside v.geometry.shape start shape) (o : Order) :
    ∃ w, v.view start shape o = some w ∧ IsView n w ∧ w.geometry.shape = shape ∧ w.geometry.order = o ∧
      ∀ (V : Type) (mem : List V) (c : List Nat), InShape shape c → InShape v.geometry.shape (List.zipWith (· + ·) start c) ∧
        w.at_ mem c = v.at_ mem (List.zipWith (· + ·) start c) := by
  obtain ⟨w, h1, h2, h3, h4, h5⟩ := View.view_spec h.ok.1 hi o
  refine ⟨w, h1, .view h hi h1, h3, h4, ?_⟩
  intro V mem c hc
  have h6 := inside_add hi hc
  refine ⟨h6, ?_⟩
  rw [View.at_eq mem h2 (by rw [h3]; exact hc), View.at_eq mem h.ok.1 h6, h5 c hc]

/-- C35, reshape of a simple view: elements keep their scalar index. -/
theorem C35_reshape {n : Nat} {v : View} (h : IsView n v) (hs : v.geometry.isSimple = true) {shape : List Nat}
    (hp : shape.prod = v.geometry.size) : (v.reshape shape).geometry.shape = shape ∧
    ∀ (V : Type) (mem : List V) (i : Nat) (c c' : List Nat), (scan v.geometry.order v.geometry.shape)[i]? = some c →
      (scan v.geometry.order shape)[i]? = some c' →
      (v.reshape shape).at_ mem c' = v.at_ mem c ∧ (v.reshape shape).atIndex mem i = v.atIndex mem i := by
  have hsh : (v.reshape shape).geometry.shape = shape := dense_shape _ _ _
  have hor : (v.reshape shape).geometry.order = v.geometry.order := dense_order _ _ _
  refine ⟨hsh, ?_⟩
  intro V mem i c c' hc hc'
  have e1 := View.reshape_addr h.ok.1 hs hc hc'
  have hinv := (IsView.reshape h hs hp).ok.1
  refine ⟨?_, ?_⟩
  · rw [View.at_eq mem hinv (by rw [hsh]; exact (scan_spec hc').1), View.at_eq mem h.ok.1 (scan_spec hc).1, e1]
  · rw [View.atIndex_eq mem hinv (c := c') (by rw [hsh, hor]; exact hc'), View.atIndex_eq mem h.ok.1 hc, e1]

/-- The hypotheses can be met: permute a sub-view of an array and shift it. -/
example : ∃ w g g', IsView 24 w ∧ w.geometry.permute [2, 0, 1] = some g ∧ g.shift 5 = some g' ∧ IsView 24 ⟨w.base, g'⟩ ∧
    g'.shape = [2, 2, 3] := by
  have h0 : IsView 24 ⟨0, .dense [2, 3, 4] .lastMajor .lastMajor⟩ := .dense _ _ _ rfl
  obtain ⟨w, h1, hw, hsh, _⟩ := C35_view h0 (start := [0, 1, 1]) (shape := [2, 2, 3]) (by simp [Inside, dense_shape]) .lastMajor
  have e : w = ⟨8, .strided [2, 2, 3] [1, 2, 6] .lastMajor⟩ := by
    have : (View.mk 0 (.dense [2, 3, 4] .lastMajor .lastMajor)).view [0, 1, 1] [2, 2, 3] .lastMajor =
      some ⟨8, .strided [2, 2, 3] [1, 2, 6] .lastMajor⟩ := rfl
    rw [this] at h1
    exact (Option.some.inj h1).symm
  subst e
  obtain ⟨g, h2, hg, _⟩ := C35_permute hw (by decide) (p := [2, 0, 1]) (by decide)
  have e2 : g.shape = [3, 2, 2] := by
    have : (Geometry.strided [2, 2, 3] [1, 2, 6] .lastMajor).permute [2, 0, 1] = some g := h2
    rw [← Option.some.inj ((by rfl : (Geometry.strided [2, 2, 3] [1, 2, 6] .lastMajor).permute [2, 0, 1] =
      some (Geometry.updateSimplicity ⟨[3, 2, 2], [1, 3, 6], [6, 1, 2], 12, .lastMajor, true⟩)).symm.trans this)]
    rfl
  obtain ⟨g', h3, hg', _⟩ := C35_shift hg (by rw [e2]; decide) 5
  refine ⟨_, g, g', hw, h2, h3, hg', ?_⟩
  have e3 : g = Geometry.updateSimplicity ⟨[3, 2, 2], [1, 3, 6], [6, 1, 2], 12, .lastMajor, true⟩ := by
    have : (Geometry.strided [2, 2, 3] [1, 2, 6] .lastMajor).permute [2, 0, 1] = some g := h2
    exact (Option.some.inj ((by rfl : (Geometry.strided [2, 2, 3] [1, 2, 6] .lastMajor).permute [2, 0, 1] =
      some (Geometry.updateSimplicity ⟨[3, 2, 2], [1, 3, 6], [6, 1, 2], 12, .lastMajor, true⟩)).symm.trans this)).symm
  subst e3
  have : ((Geometry.updateSimplicity ⟨[3, 2, 2], [1, 3, 6], [6, 1, 2], 12, .lastMajor, true⟩).shift 5).map (·.shape) =
    some [2, 2, 3] := by decide
  rw [h3] at this
  exact Option.some.inj this

/-! ### C53, C54: iterators -/

/-- C53: the iterator from `begin()` advanced `k < size` times refers to the element with scalar index `k`; after `size` steps its
index is `size`. Excluded are views of dimension 0 that are not marked simple (see `C53_iterate_violated`). -/
theorem C53_iterate_partial {n : Nat} {v : View} (h : IsView n v) (hd : v.geometry.isSimple = true ∨ v.geometry.shape ≠ [])
    (hs : 0 < v.geometry.size) :
    ∃ it, Iter.make v.geometry 0 = some it ∧
      (∀ k, k < v.geometry.size → ∃ it', Iter.steps v.geometry k it = some it' ∧ it'.index = k ∧
        ∀ (V : Type) (mem : List V) (c : List Nat), (scan v.geometry.order v.geometry.shape)[k]? = some c →
          it'.deref mem v.base = v.at_ mem c) ∧
      ∃ it', Iter.steps v.geometry v.geometry.size it = some it' ∧ it'.index = v.geometry.size := by
  have hinv := h.ok.1
  obtain ⟨it, h1, h2⟩ := Iter.make_spec hinv hd hs
  refine ⟨it, h1, ?_, ?_⟩
  · intro k hk
    obtain ⟨it', h3, h4⟩ := Iter.steps_spec hinv k 0 it h2 (by omega)
    rw [Nat.zero_add] at h4
    refine ⟨it', h3, h4.1, ?_⟩
    intro V mem c hc
    rw [h4.deref mem v.base hc, View.at_eq mem hinv (scan_spec hc).1]
  · obtain ⟨it', h3, h4⟩ := Iter.steps_spec hinv (v.geometry.size - 1) 0 it h2 (by omega)
    obtain ⟨it'', h5, h6⟩ := Iter.next_last hinv h4 (by omega) hd
    refine ⟨it'', ?_, h6⟩
    have e : v.geometry.size = (v.geometry.size - 1) + 1 := by omega
    rw [e, Iter.steps, h3, Option.bind_some, h5]

/-- A view of dimension 0 that is not marked simple: squeeze of the sub-view `[1,1]` of a `[3,2]` array. -/
def squeezedScalar : View := ⟨0, ⟨[], [], [], 1, .lastMajor, false⟩⟩

theorem isView_squeezedScalar : IsView 6 squeezedScalar := by
  have h1 : IsView 6 ⟨0, .dense [3, 2] .lastMajor .lastMajor⟩ := .dense _ _ _ rfl
  have h2 : IsView 6 ⟨0, .strided [1, 1] [1, 3] .lastMajor⟩ :=
    .view (start := [0, 0]) (shape := [1, 1]) (o := .lastMajor) h1 (by simp [Inside, dense_shape]) rfl
  exact .squeeze h2

/-- C53 fails for this view: making the iterator reads the shape strides of dimension `0-1`. -/
theorem C53_iterate_violated : ∃ v : View, IsView 6 v ∧ v.geometry.size = 1 ∧ Iter.make v.geometry 0 = none :=
  ⟨squeezedScalar, isView_squeezedScalar, by decide, by decide⟩

/-- C54: decrementing an iterator that was advanced from `begin()` to an element that is not the end leads back to the element before
it. Decrementing the end iterator is not covered (see `C54_decrement_violated`). -/
theorem C54_decrement_partial {n : Nat} {v : View} (h : IsView n v) (hd : v.geometry.isSimple = true ∨ v.geometry.shape ≠ [])
    {k : Nat} (hk : k + 1 < v.geometry.size) :
    ∃ it it' it'', Iter.make v.geometry 0 = some it ∧ Iter.steps v.geometry (k + 1) it = some it' ∧ it'.prev v.geometry = some it'' ∧
      it''.index = k ∧ ∀ (V : Type) (mem : List V) (c : List Nat), (scan v.geometry.order v.geometry.shape)[k]? = some c →
        it''.deref mem v.base = v.at_ mem c := by
  have hinv := h.ok.1
  obtain ⟨it, h1, h2⟩ := Iter.make_spec hinv hd (i := 0) (by omega)
  obtain ⟨it', h3, h4⟩ := Iter.steps_spec hinv (k + 1) 0 it h2 (by omega)
  rw [Nat.zero_add] at h4
  obtain ⟨it'', h5, h6⟩ := Iter.prev_spec hinv h4
  refine ⟨it, it', it'', h1, h3, h5, h6.1, ?_⟩
  intro V mem c hc
  rw [h6.deref mem v.base hc, View.at_eq mem hinv (scan_spec hc).1]

/-- C54 fails at the end: for a transposed 2×2 array, decrementing `end()` gives an iterator with the index of the last element that
refers to another element. -/
theorem C54_decrement_violated : ∃ (v : View) (e it : Iter), IsView 4 v ∧ Iter.make v.geometry v.geometry.size = some e ∧
    e.prev v.geometry = some it ∧ it.index = 3 ∧ it.deref [10, 11, 12, 13] v.base = some 12 ∧
    v.atIndex [10, 11, 12, 13] 3 = some 13 := by
  refine ⟨⟨0, ⟨[2, 2], [1, 2], [2, 1], 4, .lastMajor, false⟩⟩, ⟨4, 4, [2, 1]⟩, ⟨3, 2, [1, 1]⟩, ?_, by decide, by decide, by decide,
    by decide, by decide⟩
  exact .permute (v := ⟨0, .dense [2, 2] .lastMajor .lastMajor⟩) (p := [1, 0]) (.dense _ _ _ rfl) (by decide) (by decide) rfl

example : IsView 4 ⟨0, ⟨[2, 2], [1, 2], [2, 1], 4, .lastMajor, false⟩⟩ :=
  .permute (v := ⟨0, .dense [2, 2] .lastMajor .lastMajor⟩) (p := [1, 0]) (.dense _ _ _ rfl) (by decide) (by decide) rfl

/-! ### C36, C55: arrays -/

/-- Arrays that a program can make. -/
inductive IsArr {V : Type} (zero : V) : Arr V → Prop
  | empty : IsArr zero .empty
  | scalar (x : V) (o : Order) : IsArr zero (.scalar x o)
  | make (shape : List Nat) (x : V) (o : Order) : Positive shape → IsArr zero (.make shape x o)
  | set {a a' : Arr V} {c : List Nat} {x : V} : IsArr zero a → a.set c x = some a' → IsArr zero a'
  | resize {a a' : Arr V} {shape : List Nat} {x : V} : IsArr zero a → Positive shape → a.resize zero shape x = some a' → IsArr zero a'
  | ofView {mem : List V} {v : View} {a : Arr V} : IsView mem.length v → 0 < v.geometry.size →
      (v.geometry.isSimple = true ∨ v.geometry.shape ≠ []) → Arr.ofView mem v = some a → IsArr zero a

theorem prod_positive : ∀ {s : List Nat}, 0 < s.prod → Positive s
  | [], _ => by intro n hn; simp at hn
  | m :: s, h => by
    rw [List.prod_cons] at h
    intro n hn
    rcases List.mem_cons.mp hn with rfl | hn
    · exact Nat.pos_of_mul_pos_right h
    · exact prod_positive (Nat.pos_of_mul_pos_left h) n hn

theorem IsArr.ok {V : Type} {zero : V} {a : Arr V} (h : IsArr zero a) : a = .empty ∨ ∃ shape o, Positive shape ∧ a.Ok shape o := by
  induction h with
  | empty => exact Or.inl rfl
  | scalar x o => exact Or.inr ⟨[], o, by intro n hn; simp at hn, rfl, _, rfl, rfl⟩
  | make shape x o hp => exact Or.inr ⟨shape, o, hp, (Arr.make_spec shape x o).1⟩
  | @set a a' c x _ hs ih =>
    rcases ih with rfl | ⟨shape, o, hp, hok⟩
    · simp [Arr.set, Arr.empty] at hs
    · exact Or.inr ⟨shape, o, hp, Arr.set_ok hok hs⟩
  | @resize a a' shape x _ hp hr ih =>
    have : a = .empty ∨ ∃ shape o, a.Ok shape o := by
      rcases ih with h | ⟨s, o, _, h⟩
      · exact Or.inl h
      · exact Or.inr ⟨s, o, h⟩
    obtain ⟨o, ho⟩ := Arr.resize_ok this hr
    exact Or.inr ⟨shape, o, hp, ho⟩
  | @ofView mem v a hv hs hd ha =>
    obtain ⟨a', h1, h2, _⟩ := Arr.ofView_spec mem v hv.ok.1 hd hs hv.ok.2.1
    rw [ha] at h1
    injection h1 with h1
    subst h1
    exact Or.inr ⟨_, _, prod_positive (by rw [← hv.ok.1.size]; exact hs), h2⟩

/-- C36 (part): resize keeps the value of every cell that both shapes have and fills the others, for arrays with data. The new shape
has one element, or the old array is a scalar, or some dimension has at least two entries in both shapes. Missing: the remaining
shapes, where the code is wrong (`C36_resize_violated`). -/
theorem C36_resize_partial {V : Type} {zero : V} {a : Arr V} (h : IsArr zero a) (hd : a.data ≠ none) {newShape : List Nat}
    (hp : Positive newShape)
    (hs : newShape.prod = 1 ∨ a.geometry.shape = [] ∨ ∃ j : Nat, 2 ≤ a.geometry.shape.getD j 0 ∧ 2 ≤ newShape.getD j 0) (value : V) :
    ∃ a', a.resize zero newShape value = some a' ∧ a'.geometry.shape = newShape ∧
      ∀ c', InShape newShape c' →
        (∀ c, InShape a.geometry.shape c → SameCell c c' → a'.get c' = a.get c) ∧
        ((∀ c, InShape a.geometry.shape c → ¬SameCell c c') → a'.get c' = some value) := by
  rcases h.ok with rfl | ⟨shape, o, hps, hok⟩
  · exact absurd rfl hd
  have hsh : a.geometry.shape = shape := by rw [hok.1, dense_shape]
  rw [hsh] at hs ⊢
  by_cases hn : newShape = []
  · subst hn
    obtain ⟨a', h1, h2, h3⟩ := Arr.resize_scalar zero hok hps value
    exact ⟨a', h1, by rw [h2.1, dense_shape], h3⟩
  · obtain ⟨a', h1, h2, h3⟩ := Arr.resize_spec zero hok hps hn hp hs value
    exact ⟨a', h1, by rw [h2.1, dense_shape], h3⟩

/-- C36 for arrays without data (after the default constructor or `assign()`): all cells get the fill value. -/
theorem C36_resize_empty {V : Type} (zero value : V) {newShape : List Nat} (hn : newShape ≠ []) :
    ∃ a', (Arr.empty : Arr V).resize zero newShape value = some a' ∧ a'.geometry.shape = newShape ∧
      ∀ c', InShape newShape c' → a'.get c' = some value := by
  obtain ⟨a', h1, h2, h3⟩ := Arr.resize_empty zero hn value
  exact ⟨a', h1, by rw [h2.1, dense_shape], h3⟩

/-- C36 fails: resizing a `1×3` array to `3×1` has undefined behaviour. -/
theorem C36_resize_violated : ∃ a : Arr Nat, IsArr 0 a ∧ a.geometry.shape = [1, 3] ∧ a.resize 0 [3, 1] 9 = none :=
  ⟨.make [1, 3] 7 .lastMajor, .make _ _ _ (by intro n hn; simp at hn; omega), rfl, by decide⟩

example : ((Arr.make [2, 3] 7 .lastMajor).resize 0 [3, 2, 2] 9).map (fun a => (a.get [1, 1, 0], a.get [2, 0, 0], a.get [1, 1, 1])) =
    some (some 7, some 9, some 9) := by decide

/-- C55 (part): the array made from a view has its shape and elements. Missing: views of dimension 0 that are not marked simple
(`C55_copy_violated`). -/
theorem C55_copy_partial {V : Type} {mem : List V} {v : View} (h : IsView mem.length v) (hs : 0 < v.geometry.size)
    (hd : v.geometry.isSimple = true ∨ v.geometry.shape ≠ []) :
    ∃ a, Arr.ofView mem v = some a ∧ a.geometry.shape = v.geometry.shape ∧ a.geometry.order = v.geometry.order ∧
      ∀ c, InShape v.geometry.shape c → a.get c = v.at_ mem c ∧ ∃ x, a.get c = some x := by
  obtain ⟨a, h1, h2, h3⟩ := Arr.ofView_spec mem v h.ok.1 hd hs h.ok.2.1
  refine ⟨a, h1, by rw [h2.1, dense_shape], by rw [h2.1, dense_order], ?_⟩
  intro c hc
  exact ⟨h3 c hc, h2.get_some hc⟩

theorem C55_copy_violated : ∃ v : View, IsView 6 v ∧ v.geometry.size = 1 ∧ Arr.ofView [1, 2, 3, 4, 5, 6] v = none :=
  ⟨squeezedScalar, isView_squeezedScalar, by decide, by decide⟩

example : ((Arr.ofView [1, 2, 3, 4, 5, 6] ⟨0, ⟨[3, 2], [1, 3], [2, 1], 6, .lastMajor, false⟩⟩).map (fun a => a.get [2, 1])) =
    some (some 6) := by decide

end Marray
end OpenGM
