import Verif.Lemmas.MarrayOps
/-
Shift, squeeze, bound views, sub-views, reshape; reachable views.
-/
namespace OpenGM
open Spec Walkers
namespace Marray
namespace Geometry

theorem shiftDown_spec {g : Geometry} (h : g.Inv) (hd : g.shape ≠ []) {n : Int} (hn : n ≤ 0) :
    ∃ g', g.shiftDown n = some g' ∧ IsPermuted (shifted g.shape.length n) g g' := by
  have hl : 0 < g.shape.length := List.length_pos_iff.mpr hd
  obtain ⟨g', h1, h2⟩ := permute_spec h hd (shifted_perm hl n)
  refine ⟨g', ?_, h2⟩
  rw [← h1, shiftDown]
  congr 1
  unfold shifted
  apply List.map_congr_left
  intro j _
  have e : (((j : Int) - n).toNat : Int) = (j : Int) - n := Int.toNat_of_nonneg (by omega)
  rw [← e, ← Int.natCast_emod, Int.toNat_natCast, Int.toNat_natCast]

theorem shifted_congr {d : Nat} {n m : Int} (h : (d : Int) ∣ n - m) : shifted d n = shifted d m := by
  unfold shifted
  apply List.map_congr_left
  intro j _
  congr 1
  apply Int.emod_eq_emod_iff_emod_sub_eq_zero.mpr
  apply Int.emod_eq_zero_of_dvd
  have : (j : Int) - n - ((j : Int) - m) = -(n - m) := by omega
  rw [this]
  exact Int.dvd_neg.mpr h

theorem shiftSmall_spec {g : Geometry} (h : g.Inv) (hd : g.shape ≠ []) {n : Int} (hn : n ≤ g.shape.length) :
    ∃ g', g.shiftSmall n = some g' ∧ IsPermuted (shifted g.shape.length n) g g' := by
  unfold shiftSmall
  split
  · have := shiftDown_spec h hd (n := n - g.shape.length) (by omega)
    rwa [shifted_congr (n := n - g.shape.length) (m := n) (by
      have : n - (g.shape.length : Int) - n = -(g.shape.length : Int) := by omega
      rw [this]
      exact Int.dvd_neg.mpr (dvd_refl _))] at this
  · exact shiftDown_spec h hd (by omega)

theorem shift_spec {g : Geometry} (h : g.Inv) (hd : g.shape ≠ []) (n : Int) :
    ∃ g', g.shift n = some g' ∧ IsPermuted (shifted g.shape.length n) g g' := by
  have hl : 0 < g.shape.length := List.length_pos_iff.mpr hd
  unfold shift
  split
  · rw [if_neg (by omega)]
    have hlt : n.tmod g.shape.length < g.shape.length := Int.tmod_lt_of_pos n (by omega)
    have := shiftSmall_spec h hd (n := n.tmod g.shape.length) (by omega)
    rwa [shifted_congr (n := n.tmod g.shape.length) (m := n) (by
      have e := Int.mul_tdiv_add_tmod n g.shape.length
      have : n.tmod g.shape.length - n = -((g.shape.length : Int) * n.tdiv g.shape.length) := by omega
      rw [this]
      exact Int.dvd_neg.mpr (dvd_mul_right _ _))] at this
  · exact shiftSmall_spec h hd (by omega)

/-! ### squeeze -/

theorem keep_length_eq : ∀ (s a b : List Nat), a.length = s.length → b.length = s.length →
    (keepNonSingleton s a).length = (keepNonSingleton s b).length
  | [], [], [], _, _ => rfl
  | [], _ :: _, _, h, _ => by simp at h
  | [], _, _ :: _, _, h => by simp at h
  | _ :: _, [], _, h, _ => by simp at h
  | _ :: _, _, [], _, h => by simp at h
  | n :: s, x :: a, y :: b, h1, h2 => by
    simp only [keepNonSingleton]
    split
    · simp [keep_length_eq s a b (by simpa using h1) (by simpa using h2)]
    · exact keep_length_eq s a b (by simpa using h1) (by simpa using h2)

theorem keep_length_le : ∀ (s a : List Nat), a.length = s.length → (keepNonSingleton s a).length ≤ s.length
  | [], [], _ => by simp [keepNonSingleton]
  | [], _ :: _, h => by simp at h
  | _ :: _, [], h => by simp at h
  | n :: s, x :: a, h => by
    have := keep_length_le s a (by simpa using h)
    simp only [keepNonSingleton]
    split <;> simp <;> omega

theorem keep_all : ∀ (s a : List Nat), a.length = s.length → (keepNonSingleton s a).length = s.length → keepNonSingleton s a = a
  | [], [], _, _ => by simp [keepNonSingleton]
  | [], _ :: _, h, _ => by simp at h
  | _ :: _, [], h, _ => by simp at h
  | n :: s, x :: a, h, hk => by
    have hle := keep_length_le s a (by simpa using h)
    simp only [keepNonSingleton] at hk ⊢
    split
    · rename_i hn
      rw [if_pos hn] at hk
      rw [keep_all s a (by simpa using h) (by simpa using hk)]
    · rename_i hn
      rw [if_neg hn] at hk
      simp at hk
      omega

theorem prod_keep : ∀ (s : List Nat), (keepNonSingleton s s).prod = s.prod
  | [] => rfl
  | n :: s => by
    simp only [keepNonSingleton]
    split
    · simp [prod_keep s]
    · rename_i hn
      have : n = 1 := by omega
      subst this
      simp [prod_keep s]

theorem inShape_keep : ∀ {s c : List Nat}, InShape s c → InShape (keepNonSingleton s s) (keepNonSingleton s c)
  | [], [], _ => trivial
  | [], _ :: _, h => by simp [InShape] at h
  | _ :: _, [], h => by simp [InShape] at h
  | n :: s, x :: c, h => by
    simp only [keepNonSingleton]
    split
    · exact ⟨h.1, inShape_keep h.2⟩
    · exact inShape_keep h.2

theorem dot_keep : ∀ {s st c : List Nat}, InShape s c → st.length = s.length →
    dot (keepNonSingleton s st) (keepNonSingleton s c) = dot st c
  | [], [], [], _, _ => rfl
  | [], _, _ :: _, h, _ => by simp [InShape] at h
  | _ :: _, _, [], h, _ => by simp [InShape] at h
  | [], _ :: _, _, _, h => by simp at h
  | _ :: _, [], _, _, h => by simp at h
  | n :: s, u :: st, x :: c, h, hl => by
    simp only [keepNonSingleton]
    have ih := dot_keep (s := s) (st := st) h.2 (by simpa using hl)
    split
    · simp only [dot, ih]
    · have : x = 0 := by have := h.1; omega
      subst this
      simp only [dot, ih]
      omega

/-- Put zeros back where a singleton dimension was removed. -/
def unsqueeze : List Nat → List Nat → List Nat
  | [], _ => []
  | n :: s, c =>
    if n = 1 then 0 :: unsqueeze s c
    else match c with
      | x :: c => x :: unsqueeze s c
      | [] => 0 :: unsqueeze s []

theorem unsqueeze_spec : ∀ {s c : List Nat}, InShape (keepNonSingleton s s) c →
    InShape s (unsqueeze s c) ∧ keepNonSingleton s (unsqueeze s c) = c
  | [], [], _ => ⟨trivial, rfl⟩
  | [], _ :: _, h => by simp [InShape, keepNonSingleton] at h
  | n :: s, c, h => by
    simp only [keepNonSingleton] at h
    by_cases hn : n = 1
    · rw [if_neg (by simp [hn])] at h
      obtain ⟨h1, h2⟩ := unsqueeze_spec h
      simp only [unsqueeze, if_pos hn, keepNonSingleton]
      refine ⟨⟨by omega, h1⟩, ?_⟩
      rw [if_neg (by simp [hn])]
      exact h2
    · rw [if_pos hn] at h
      cases c with
      | nil => simp [InShape] at h
      | cons x c =>
        obtain ⟨h1, h2⟩ := unsqueeze_spec h.2
        simp only [unsqueeze, if_neg hn, keepNonSingleton]
        refine ⟨⟨h.1, h1⟩, ?_⟩
        rw [if_pos hn, h2]

theorem squeeze_shape (g : Geometry) : g.squeeze.shape = keepNonSingleton g.shape g.shape := by
  unfold squeeze
  split
  · rename_i h; rw [h]; rfl
  · simp only
    split
    · rename_i h
      exact (keep_all _ _ rfl h).symm
    · split
      · rename_i h; rw [h]
      · rfl

theorem squeeze_order (g : Geometry) : g.squeeze.order = g.order := by
  unfold squeeze
  split
  · rfl
  · simp only
    split
    · rfl
    · split <;> rfl

theorem squeeze_strides {g : Geometry} (h : g.Inv) : g.squeeze.strides = keepNonSingleton g.shape g.strides := by
  unfold squeeze
  split
  · rename_i he
    have : g.strides = [] := List.length_eq_zero_iff.mp (by rw [h.length, he]; rfl)
    rw [this, he]; rfl
  · simp only
    split
    · rename_i hk
      have := keep_length_eq g.shape g.shape g.strides rfl h.length
      exact (keep_all _ _ h.length (by omega)).symm
    · split
      · rename_i hk
        have := keep_length_eq g.shape g.shape g.strides rfl h.length
        rw [hk] at this
        exact (List.length_eq_zero_iff.mp (by simpa using this.symm)).symm
      · rfl

theorem inv_squeeze {g : Geometry} (h : g.Inv) : g.squeeze.Inv := by
  have hs := squeeze_strides h
  have hsh := squeeze_shape g
  unfold squeeze at hs hsh ⊢
  split
  · exact h
  · simp only at hs hsh ⊢
    split
    · exact h
    · split
      · refine ⟨rfl, ?_, rfl, fun _ => rfl⟩
        simp only
        cases g.order <;> rfl
      · apply inv_updateSimplicity
        · simp only
          rw [prod_keep, h.size]
        · rfl
        · exact (keep_length_eq _ _ _ h.length rfl)

/-! ### fixed coordinate -/

theorem insertAt_zero (x : Nat) (c : List Nat) : insertAt 0 x c = x :: c := by simp [insertAt]

theorem insertAt_succ (j x y : Nat) (c : List Nat) : insertAt (j + 1) x (y :: c) = y :: insertAt j x c := by simp [insertAt]

theorem inShape_insertAt : ∀ {s c : List Nat} {j x n : Nat}, s[j]? = some n →
    (InShape s (insertAt j x c) ∧ c.length + 1 = s.length ↔ InShape (s.eraseIdx j) c ∧ x < n)
  | [], _, _, _, _, h => by simp at h
  | m :: s, c, 0, x, n, h => by
    simp only [List.getElem?_cons_zero, Option.some.injEq] at h
    subst h
    rw [insertAt_zero]
    simp only [InShape, List.eraseIdx_zero, List.tail_cons, List.length_cons, Nat.add_right_cancel_iff]
    constructor
    · rintro ⟨⟨h1, h2⟩, h3⟩; exact ⟨h2, h1⟩
    · rintro ⟨h1, h2⟩; exact ⟨⟨h2, h1⟩, inShape_length h1⟩
  | m :: s, [], j + 1, x, n, h => by
    have hj : j < s.length := by
      by_contra hc
      simp only [List.getElem?_cons_succ] at h
      rw [List.getElem?_eq_none (by omega)] at h
      simp at h
    simp only [List.eraseIdx_cons_succ, InShape, false_and, iff_false, List.length_nil, List.length_cons]
    omega
  | m :: s, y :: c, j + 1, x, n, h => by
    have ih := inShape_insertAt (s := s) (c := c) (j := j) (x := x) (n := n) (by simpa using h)
    rw [insertAt_succ]
    simp only [List.eraseIdx_cons_succ, InShape, List.length_cons, Nat.add_right_cancel_iff]
    constructor
    · rintro ⟨⟨h1, h2⟩, h3⟩
      obtain ⟨h4, h5⟩ := ih.mp ⟨h2, h3⟩
      exact ⟨⟨h1, h4⟩, h5⟩
    · rintro ⟨⟨h1, h2⟩, h3⟩
      obtain ⟨h4, h5⟩ := ih.mpr ⟨h2, h3⟩
      exact ⟨⟨h1, h4⟩, h5⟩

theorem dot_insertAt : ∀ {st c : List Nat} {j x u : Nat}, st[j]? = some u → c.length + 1 = st.length →
    dot st (insertAt j x c) = u * x + dot (st.eraseIdx j) c
  | [], _, _, _, _, h, _ => by simp at h
  | m :: s, c, 0, x, n, h, _ => by
    simp only [List.getElem?_cons_zero, Option.some.injEq] at h
    subst h
    rw [insertAt_zero, dot, List.eraseIdx_zero, List.tail_cons, Nat.mul_comm]
  | m :: s, [], j + 1, x, n, h, hl => by
    have : s = [] := List.length_eq_zero_iff.mp (by simpa using hl.symm)
    subst this
    simp at h
  | m :: s, y :: c, j + 1, x, n, h, hl => by
    rw [insertAt_succ, dot, dot_insertAt (st := s) (c := c) (j := j) (x := x) (u := n) (by simpa using h) (by simpa using hl),
      List.eraseIdx_cons_succ, dot]
    omega

theorem prod_eraseIdx : ∀ {s : List Nat} {j n : Nat}, s[j]? = some n → s.prod = n * (s.eraseIdx j).prod
  | [], _, _, h => by simp at h
  | m :: s, 0, n, h => by
    simp only [List.getElem?_cons_zero, Option.some.injEq] at h
    subst h
    simp
  | m :: s, j + 1, n, h => by
    rw [List.prod_cons, prod_eraseIdx (s := s) (j := j) (n := n) (by simpa using h), List.eraseIdx_cons_succ, List.prod_cons]
    ring

/-! ### sub-view -/

/-- The part starting at `start` with shape `shape` lies inside an array of shape `outer`. -/
def Inside : List Nat → List Nat → List Nat → Prop
  | [], [], [] => True
  | n :: outer, b :: start, m :: shape => b + m ≤ n ∧ Inside outer start shape
  | _, _, _ => False

theorem Inside.lengths : ∀ {outer start shape : List Nat}, Inside outer start shape →
    start.length = outer.length ∧ shape.length = outer.length
  | [], [], [], _ => ⟨rfl, rfl⟩
  | [], [], _ :: _, h => by simp [Inside] at h
  | [], _ :: _, _, h => by simp [Inside] at h
  | _ :: _, [], _, h => by simp [Inside] at h
  | _ :: _, _ :: _, [], h => by simp [Inside] at h
  | n :: outer, b :: start, m :: shape, h => by
    obtain ⟨h1, h2⟩ := Inside.lengths h.2
    simp [h1, h2]

theorem inside_add : ∀ {outer start shape c : List Nat}, Inside outer start shape → InShape shape c →
    InShape outer (List.zipWith (· + ·) start c)
  | [], [], [], c, _, h => by cases c <;> simp_all [InShape]
  | [], [], _ :: _, _, h, _ => by simp [Inside] at h
  | [], _ :: _, _, _, h, _ => by simp [Inside] at h
  | _ :: _, [], _, _, h, _ => by simp [Inside] at h
  | _ :: _, _ :: _, [], _, h, _ => by simp [Inside] at h
  | _ :: _, _ :: _, _ :: _, [], _, h => by simp [InShape] at h
  | n :: outer, b :: start, m :: shape, x :: c, h, hc => by
    have h1 := h.1
    have h2 := hc.1
    exact ⟨by simp only; omega, inside_add h.2 hc.2⟩

theorem dot_add : ∀ {st start c : List Nat}, start.length = st.length → c.length = st.length →
    dot st (List.zipWith (· + ·) start c) = dot st start + dot st c
  | [], _, _, _, _ => by simp [dot]
  | _ :: _, [], _, h, _ => by simp at h
  | _ :: _, _ :: _, [], _, h => by simp at h
  | u :: st, b :: start, x :: c, h1, h2 => by
    simp only [List.zipWith_cons_cons, dot]
    rw [dot_add (by simpa using h1) (by simpa using h2)]
    ring

theorem zipWith_add_inj : ∀ {start c c' : List Nat}, c.length = start.length → c'.length = start.length →
    List.zipWith (· + ·) start c = List.zipWith (· + ·) start c' → c = c'
  | [], [], [], _, _, _ => rfl
  | [], _ :: _, _, h, _, _ => by simp at h
  | [], _, _ :: _, _, h, _ => by simp at h
  | _ :: _, [], _, h, _, _ => by simp at h
  | _ :: _, _, [], _, h, _ => by simp at h
  | b :: start, x :: c, y :: c', h1, h2, h => by
    simp only [List.zipWith_cons_cons, List.cons.injEq] at h
    have := zipWith_add_inj (by simpa using h1) (by simpa using h2) h.2
    have : x = y := by have := h.1; omega
    simp_all

end Geometry

namespace View
open Geometry

/-- Position in memory of the element at a coordinate. -/
def addr (v : View) (c : List Nat) : Nat := v.base + dot v.geometry.strides c

theorem at_eq {V : Type} (mem : List V) {v : View} (h : v.geometry.Inv) {c : List Nat} (hc : InShape v.geometry.shape c) :
    v.at_ mem c = mem[v.addr c]? := by
  rw [at_, h.toOffset hc]; rfl

theorem atIndex_eq {V : Type} (mem : List V) {v : View} (h : v.geometry.Inv) {c : List Nat} {i : Nat}
    (hc : (scan v.geometry.order v.geometry.shape)[i]? = some c) : v.atIndex mem i = mem[v.addr c]? := by
  rw [atIndex, h.indexOffset hc]; rfl

theorem view_spec {v : View} (h : v.geometry.Inv) {start shape : List Nat} (hi : Inside v.geometry.shape start shape) (o : Order) :
    ∃ w, v.view start shape o = some w ∧ w.geometry.Inv ∧ w.geometry.shape = shape ∧ w.geometry.order = o ∧
      ∀ c, InShape shape c → w.addr c = v.addr (List.zipWith (· + ·) start c) := by
  obtain ⟨h1, h2⟩ := hi.lengths
  unfold view
  rw [if_neg (by simp [h2])]
  rw [coordinatesToOffset, dotLoop_eq _ _ _ (by rw [h.length, h1])]
  have hl : v.geometry.strides.length = shape.length := by rw [h.length, h2]
  refine ⟨_, rfl, inv_strided _ _ _ hl, strided_shape _ _ _, strided_order _ _ _, ?_⟩
  intro c hc
  simp only [addr]
  rw [strided_strides _ _ _ hl, dot_add (by rw [h.length, h1]) (by rw [h.length, inShape_length hc, h2])]
  omega

theorem boundView_spec {v : View} (h : v.geometry.Inv) {j x n : Nat} (hj : v.geometry.shape[j]? = some n) (hx : x < n) :
    ∃ w, v.boundView j x = some w ∧ w.geometry.Inv ∧ w.geometry.shape = v.geometry.shape.eraseIdx j ∧
      w.geometry.order = v.geometry.order ∧
      ∀ c, InShape w.geometry.shape c → w.addr c = v.addr (insertAt j x c) := by
  have hjl : j < v.geometry.shape.length := by
    by_contra hc
    rw [List.getElem?_eq_none (by omega)] at hj
    simp at hj
  unfold boundView
  by_cases hd : v.geometry.shape.length = 1
  · rw [if_pos hd]
    obtain ⟨m, hm⟩ := List.length_eq_one_iff.mp hd
    have hj0 : j = 0 := by omega
    subst hj0
    have hmn : m = n := by rw [hm] at hj; simpa using hj
    subst hmn
    have hin : InShape v.geometry.shape [x] := by rw [hm]; exact ⟨hx, trivial⟩
    have hsc := scan_of_inShape (o := v.geometry.order) hin
    obtain ⟨st, hst⟩ := List.length_eq_one_iff.mp (h.length.trans hd)
    have hidx : (scan v.geometry.order v.geometry.shape)[x]? = some [x] := by
      have : dot (stridesOf v.geometry.shape v.geometry.order) [x] = x := by
        rw [hm]
        cases v.geometry.order <;> simp [stridesOf, stridesLoop, dot]
      rwa [this] at hsc
    rw [h.indexOffset hidx]
    refine ⟨_, rfl, ?_, ?_, rfl, ?_⟩
    · refine ⟨rfl, ?_, rfl, fun _ => rfl⟩
      simp only [Geometry.scalar]
      cases v.geometry.order <;> rfl
    · simp [Geometry.scalar, hm]
    · intro c hc
      have : c = [] := by
        have := inShape_length hc
        exact List.length_eq_zero_iff.mp (by simpa [Geometry.scalar] using this)
      subst this
      rw [insertAt_zero]
      simp [addr, Geometry.scalar, dot]
  · rw [if_neg hd]
    have hst : ∃ s, v.geometry.strides[j]? = some s :=
      ⟨_, List.getElem?_eq_getElem (by rw [h.length]; exact hjl)⟩
    obtain ⟨s, hs⟩ := hst
    rw [hj, hs]
    have hne : v.geometry.shape.eraseIdx j ≠ [] := by
      intro hc
      have := congrArg List.length hc
      rw [List.length_eraseIdx_of_lt hjl] at this
      simp at this
      omega
    simp only [stridesFromShape, if_neg hne, if_neg (show n ≠ 0 by omega), Option.map_some]
    refine ⟨_, rfl, ?_, rfl, rfl, ?_⟩
    · apply inv_updateSimplicity
      · simp only
        rw [h.size, prod_eraseIdx hj, Nat.mul_div_cancel_left _ (by omega)]
      · rfl
      · simp only
        rw [List.length_eraseIdx_of_lt hjl, List.length_eraseIdx_of_lt (by rw [h.length]; exact hjl), h.length]
    · intro c hc
      have hl := (inShape_insertAt (x := x) hj).mpr ⟨hc, hx⟩
      simp only [addr, updateSimplicity]
      rw [dot_insertAt hs (by rw [h.length]; exact hl.2)]
      omega

theorem squeeze_addr {v : View} (h : v.geometry.Inv) {c : List Nat} (hc : InShape v.geometry.shape c) :
    v.squeeze.addr (keepNonSingleton v.geometry.shape c) = v.addr c := by
  simp only [addr, squeeze]
  rw [squeeze_strides h, dot_keep hc h.length]

/-- The elements of `w` are elements of `v`, different ones at different coordinates. -/
def Embeds (w v : View) : Prop :=
  ∃ f : List Nat → List Nat, (∀ c, InShape w.geometry.shape c → InShape v.geometry.shape (f c) ∧ w.addr c = v.addr (f c)) ∧
    ∀ c c', InShape w.geometry.shape c → InShape w.geometry.shape c' → f c = f c' → c = c'

theorem embeds_permuted {v : View} {g' : Geometry} (h : v.geometry.Inv) {p : List Nat}
    (hp : p.Perm (List.range v.geometry.shape.length)) (hg : IsPermuted p v.geometry g') : Embeds ⟨v.base, g'⟩ v := by
  have hl : p.length = v.geometry.shape.length := by simpa using hp.length_eq
  have hex : ∀ c', InShape g'.shape c' → ∃ c : List Nat, c.length = v.geometry.shape.length ∧ p.map (fun i => c.getD i 0) = c' := by
    intro c' hc'
    apply unpermute hp
    rw [inShape_length hc', hg.shape, List.length_map, hl]
  classical
  refine ⟨fun c' => if hc : InShape g'.shape c' then (hex c' hc).choose else [], ?_, ?_⟩
  · intro c' hc'
    simp only at hc' ⊢
    rw [dif_pos hc']
    obtain ⟨h1, h2⟩ := (hex c' hc').choose_spec
    refine ⟨(inShape_permuted hp hg h1).mp (by rw [h2]; exact hc'), ?_⟩
    have h3 := dot_permuted h hp hg h1
    rw [h2] at h3
    simp only [addr]
    rw [h3]
  · intro c c' hc hc' he
    simp only at hc hc' he
    rw [dif_pos hc, dif_pos hc'] at he
    have h1 := (hex c hc).choose_spec.2
    have h2 := (hex c' hc').choose_spec.2
    rw [← h1, ← h2, he]

theorem embeds_squeeze {v : View} (h : v.geometry.Inv) : Embeds v.squeeze v := by
  have hsh : v.squeeze.geometry.shape = keepNonSingleton v.geometry.shape v.geometry.shape := squeeze_shape _
  refine ⟨unsqueeze v.geometry.shape, ?_, ?_⟩
  · intro c hc
    rw [hsh] at hc
    obtain ⟨h1, h2⟩ := unsqueeze_spec hc
    refine ⟨h1, ?_⟩
    rw [← squeeze_addr h h1, h2]
  · intro c c' hc hc' he
    rw [hsh] at hc hc'
    rw [← (unsqueeze_spec hc).2, ← (unsqueeze_spec hc').2, he]

/-- Coordinates of the element with the same scalar index. -/
theorem reshape_addr {v : View} (h : v.geometry.Inv) (hs : v.geometry.isSimple = true) {shape c c' : List Nat} {i : Nat}
    (h1 : (scan v.geometry.order v.geometry.shape)[i]? = some c) (h2 : (scan v.geometry.order shape)[i]? = some c') :
    (v.reshape shape).addr c' = v.addr c := by
  simp only [addr, reshape]
  rw [dense_strides, (scan_spec h2).2, h.simple hs, h.shapeStrides, (scan_spec h1).2]

theorem embeds_reshape {v : View} (h : v.geometry.Inv) (hs : v.geometry.isSimple = true) {shape : List Nat}
    (hp : shape.prod = v.geometry.size) : Embeds (v.reshape shape) v := by
  have hsh : (v.reshape shape).geometry.shape = shape := dense_shape _ _ _
  have hex : ∀ c', InShape shape c' →
      ∃ c, (scan v.geometry.order v.geometry.shape)[dot (stridesOf shape v.geometry.order) c']? = some c := by
    intro c' hc'
    have h1 := scan_of_inShape (o := v.geometry.order) hc'
    have h2 : dot (stridesOf shape v.geometry.order) c' < (scan v.geometry.order shape).length := by
      by_contra hc
      rw [List.getElem?_eq_none (by omega)] at h1
      simp at h1
    rw [length_scan, hp, h.size, ← length_scan v.geometry.order] at h2
    exact ⟨_, List.getElem?_eq_getElem h2⟩
  classical
  refine ⟨fun c' => if hc : InShape shape c' then (hex c' hc).choose else [], ?_, ?_⟩
  · intro c' hc'
    rw [hsh] at hc'
    simp only
    rw [dif_pos hc']
    have h1 := (hex c' hc').choose_spec
    exact ⟨(scan_spec h1).1, reshape_addr h hs h1 (scan_of_inShape hc')⟩
  · intro c c' hc hc' he
    rw [hsh] at hc hc'
    simp only at he
    rw [dif_pos hc, dif_pos hc'] at he
    have h1 := (scan_spec (hex c hc).choose_spec).2
    have h2 := (scan_spec (hex c' hc').choose_spec).2
    rw [he] at h1
    rw [h1] at h2
    have h3 := scan_of_inShape (o := v.geometry.order) hc
    have h4 := scan_of_inShape (o := v.geometry.order) hc'
    rw [← h2] at h4
    rw [h3] at h4
    exact (Option.some.inj h4)

end View
end Marray
end OpenGM
