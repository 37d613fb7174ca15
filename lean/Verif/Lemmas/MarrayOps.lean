import Verif.Lemmas.MarrayView
import Mathlib.Data.List.Perm.Subperm
import Mathlib.Data.List.GetD
import Mathlib.Algebra.BigOperators.Group.List.Basic
/-
The operations that make views from views.
-/
namespace OpenGM
open Spec Walkers
namespace Marray
namespace Geometry

theorem inShape_iff : ∀ (s c : List Nat), InShape s c ↔ c.length = s.length ∧ ∀ i : Nat, i < s.length → c.getD i 0 < s.getD i 0
  | [], [] => by simp [InShape]
  | [], _ :: _ => by simp [InShape]
  | _ :: _, [] => by simp [InShape]
  | n :: s, x :: c => by
    simp only [InShape, inShape_iff s c, List.length_cons, Nat.add_right_cancel_iff]
    constructor
    · rintro ⟨h1, h2, h3⟩
      refine ⟨h2, ?_⟩
      intro i hi
      cases i with
      | zero => simpa using h1
      | succ i => simpa using h3 i (by omega)
    · rintro ⟨h1, h2⟩
      refine ⟨by simpa using h2 0 (by omega), h1, ?_⟩
      intro i hi
      simpa using h2 (i + 1) (by omega)

theorem dot_eq_sum : ∀ (a c : List Nat), a.length = c.length →
    dot a c = ((List.range a.length).map (fun i => c.getD i 0 * a.getD i 0)).sum
  | [], [], _ => by simp [dot]
  | [], _ :: _, h => by simp at h
  | _ :: _, [], h => by simp at h
  | x :: a, y :: c, h => by
    rw [dot, dot_eq_sum a c (by simpa using h), List.length_cons, List.range_succ_eq_map]
    simp [List.map_map, Function.comp_def]

theorem list_ext_getD {a b : List Nat} (h : a.length = b.length) (h2 : ∀ i : Nat, i < a.length → a.getD i 0 = b.getD i 0) : a = b := by
  apply List.ext_getElem h
  intro i h3 h4
  have := h2 i h3
  rwa [List.getD_eq_getElem _ _ h3, List.getD_eq_getElem _ _ h4] at this

/-! ### permute -/

theorem gather_eq (l : List Nat) : ∀ p : List Nat, (∀ i ∈ p, i < l.length) → gather l p = some (p.map (fun i => l.getD i 0))
  | [], _ => rfl
  | i :: p, h => by
    have hi : i < l.length := h i (by simp)
    rw [gather, gather_eq l p (fun j hj => h j (List.mem_cons_of_mem _ hj)), List.getElem?_eq_getElem hi]
    simp only [List.map_cons, List.getD_eq_getElem _ _ hi]

/-- The order of the dimensions is permuted by `p`. -/
structure IsPermuted (p : List Nat) (g g' : Geometry) : Prop where
  shape : g'.shape = p.map (fun i => g.shape.getD i 0)
  strides : g'.strides = p.map (fun i => g.strides.getD i 0)
  order : g'.order = g.order
  inv : g'.Inv

theorem map_getD_range (l : List Nat) : (List.range l.length).map (fun i => l.getD i 0) = l := by
  apply List.ext_getElem
  · simp
  · intro i h1 h2
    rw [List.getElem_map, List.getElem_range, List.getD_eq_getElem _ _ h2]

theorem prod_permuted {p l : List Nat} (hp : p.Perm (List.range l.length)) : (p.map (fun i => l.getD i 0)).prod = l.prod := by
  have h1 := (hp.map (fun i => l.getD i 0)).prod_eq
  rw [map_getD_range] at h1
  exact h1

theorem permuted_of {g : Geometry} (h : g.Inv) (hd : g.shape ≠ []) {p : List Nat} (hp : p.Perm (List.range g.shape.length)) :
    ∃ g', IsPermuted p g g' ∧
      (stridesFromShape (p.map (fun i => g.shape.getD i 0)) g.order).map (fun ss =>
        updateSimplicity { g with shape := p.map (fun i => g.shape.getD i 0), strides := p.map (fun i => g.strides.getD i 0),
                                  shapeStrides := ss }) = some g' := by
  have hne : p.map (fun i => g.shape.getD i 0) ≠ [] := by
    intro hc
    have h1 := congrArg List.length hc
    have h2 := hp.length_eq
    simp at h1 h2
    rw [h1] at h2
    exact hd (List.length_eq_zero_iff.mp h2.symm)
  unfold stridesFromShape
  rw [if_neg hne]
  refine ⟨_, ?_, rfl⟩
  refine ⟨rfl, rfl, rfl, ?_⟩
  apply inv_updateSimplicity
  · simp only
    rw [prod_permuted hp, h.size]
  · rfl
  · simp

theorem permute_spec {g : Geometry} (h : g.Inv) (hd : g.shape ≠ []) {p : List Nat} (hp : p.Perm (List.range g.shape.length)) :
    ∃ g', g.permute p = some g' ∧ IsPermuted p g g' := by
  obtain ⟨g', h1, h2⟩ := permuted_of h hd hp
  refine ⟨g', ?_, h1⟩
  have hl : p.length = g.shape.length := by simpa using hp.length_eq
  have hr : ∀ i ∈ p, i < g.shape.length := fun i hi => by simpa using hp.mem_iff.mp hi
  unfold permute
  rw [if_neg (by simp [hl]), gather_eq _ _ hr, gather_eq _ _ (by rw [h.length]; exact hr)]
  exact h2

theorem inShape_permuted {p : List Nat} {g g' : Geometry} (hp : p.Perm (List.range g.shape.length)) (hg : IsPermuted p g g')
    {c : List Nat} (hc : c.length = g.shape.length) :
    InShape g'.shape (p.map (fun i => c.getD i 0)) ↔ InShape g.shape c := by
  have hl : p.length = g.shape.length := by simpa using hp.length_eq
  rw [inShape_iff, inShape_iff, hg.shape]
  simp only [List.length_map, true_and]
  constructor
  · intro h1
    refine ⟨hc, ?_⟩
    intro i hi
    have hm : i ∈ p := hp.mem_iff.mpr (by simpa using hi)
    obtain ⟨j, hj, rfl⟩ := List.getElem_of_mem hm
    have h2 := h1 j hj
    rw [List.getD_eq_getElem _ _ (by simpa using hj), List.getD_eq_getElem _ _ (by simpa using hj)] at h2
    simpa using h2
  · rintro ⟨_, h1⟩ j hj
    rw [List.getD_eq_getElem _ _ (by simpa using hj), List.getD_eq_getElem _ _ (by simpa using hj)]
    simp only [List.getElem_map]
    apply h1
    simpa using hp.mem_iff.mp (List.getElem_mem hj)

theorem dot_permuted {p : List Nat} {g g' : Geometry} (h : g.Inv) (hp : p.Perm (List.range g.shape.length)) (hg : IsPermuted p g g')
    {c : List Nat} (hc : c.length = g.shape.length) :
    dot g'.strides (p.map (fun i => c.getD i 0)) = dot g.strides c := by
  rw [hg.strides]
  have e1 : ∀ q : List Nat, dot (q.map (fun i => g.strides.getD i 0)) (q.map (fun i => c.getD i 0)) =
      (q.map (fun i => c.getD i 0 * g.strides.getD i 0)).sum := by
    intro q
    induction q with
    | nil => rfl
    | cons x q ih => simp only [List.map_cons, dot, ih, List.sum_cons]
  rw [e1, dot_eq_sum _ _ (by rw [h.length, hc]), h.length]
  exact (hp.map _).sum_eq

/-- Every tuple for the permuted view comes from a tuple of the view. -/
theorem unpermute {p : List Nat} {n : Nat} (hp : p.Perm (List.range n)) {c' : List Nat} (hc : c'.length = n) :
    ∃ c : List Nat, c.length = n ∧ p.map (fun i => c.getD i 0) = c' := by
  have hl : p.length = n := by simpa using hp.length_eq
  have hnd : p.Nodup := hp.nodup_iff.mpr List.nodup_range
  refine ⟨(List.range n).map (fun i => c'.getD (p.idxOf i) 0), by simp, ?_⟩
  apply List.ext_getElem
  · simp [hl, hc]
  · intro j h1 h2
    have hj : j < p.length := by simpa using h1
    have hpj : p[j] < n := by simpa using hp.mem_iff.mp (List.getElem_mem hj)
    rw [List.getElem_map, List.getD_eq_getElem _ _ (by simpa using hpj), List.getElem_map, List.getElem_range]
    rw [List.Nodup.idxOf_getElem hnd j hj, List.getD_eq_getElem _ _ h2]

/-! ### transpose of two dimensions -/

theorem swapAt_map (f : Nat → Nat) (l : List Nat) (j k : Nat) : swapAt (l.map f) j k = (swapAt l j k).map (fun l => l.map f) := by
  unfold swapAt
  rw [List.getElem?_map, List.getElem?_map]
  rcases hk : l[k]? with _ | c
  · simp
  rcases hj : l[j]? with _ | x
  · simp
  simp only [Option.map_some]
  unfold setAt
  simp only [List.length_map]
  split
  · simp only [Option.bind_some, List.length_set, List.length_map]
    split
    · simp [List.map_set]
    · simp
  · simp

theorem swapAt_spec {l : List Nat} {j k : Nat} (hj : j < l.length) (hk : k < l.length) :
    swapAt l j k = some ((l.set k l[j]).set j l[k]) := by
  unfold swapAt
  rw [List.getElem?_eq_getElem hj, List.getElem?_eq_getElem hk]
  simp only
  rw [setAt_of_lt _ hk, Option.bind_some, setAt_of_lt _ (by simpa using hj)]

/-- The positions `0 .. d-1` with `j` and `k` exchanged. -/
def swapped (d j k : Nat) : List Nat := (List.range d).map (fun i => if i = j then k else if i = k then j else i)

theorem swapAt_range {d j k : Nat} (hj : j < d) (hk : k < d) : swapAt (List.range d) j k = some (swapped d j k) := by
  rw [swapAt_spec (by simpa using hj) (by simpa using hk)]
  congr 1
  apply List.ext_getElem
  · simp [swapped]
  · intro i h1 h2
    simp only [swapped, List.getElem_set, List.getElem_range, List.getElem_map]
    by_cases e1 : j = i
    · subst e1
      simp
    · rw [if_neg e1, if_neg (Ne.symm e1)]
      by_cases e2 : k = i
      · subst e2
        simp
      · rw [if_neg e2, if_neg (Ne.symm e2)]

theorem swapAt_eq_map {l : List Nat} {j k : Nat} (hj : j < l.length) (hk : k < l.length) :
    swapAt l j k = some ((swapped l.length j k).map (fun i => l.getD i 0)) := by
  have h := swapAt_map (fun i => l.getD i 0) (List.range l.length) j k
  rw [map_getD_range, swapAt_range hj hk] at h
  exact h

theorem perm_range_of {p : List Nat} {n : Nat} (h1 : p.length = n) (h2 : ∀ i ∈ p, i < n) (h3 : p.Nodup) : p.Perm (List.range n) := by
  have h4 : p.Subperm (List.range n) := List.subperm_of_subset h3 (fun i hi => by simpa using h2 i hi)
  exact h4.perm_of_length_le (by simp [h1])

theorem swapped_perm {d j k : Nat} (hj : j < d) (hk : k < d) : (swapped d j k).Perm (List.range d) := by
  apply perm_range_of
  · simp [swapped]
  · intro i hi
    simp only [swapped, List.mem_map, List.mem_range] at hi
    obtain ⟨x, hx, rfl⟩ := hi
    split
    · exact hk
    · split
      · exact hj
      · exact hx
  · unfold swapped
    apply List.Nodup.map_on _ List.nodup_range
    intro x _ y _ hxy
    split at hxy <;> split at hxy <;> (try split at hxy) <;> (try split at hxy) <;> omega

theorem transposeTwo_spec {g : Geometry} (h : g.Inv) {j k : Nat} (hj : j < g.shape.length) (hk : k < g.shape.length) :
    ∃ g', g.transposeTwo j k = some g' ∧ IsPermuted (swapped g.shape.length j k) g g' := by
  have hd : g.shape ≠ [] := by rintro hc; simp [hc] at hj
  obtain ⟨g', h1, h2⟩ := permuted_of h hd (swapped_perm hj hk)
  refine ⟨g', ?_, h1⟩
  unfold transposeTwo
  have e2 := swapAt_eq_map (l := g.strides) (by rw [h.length]; exact hj) (by rw [h.length]; exact hk)
  rw [h.length] at e2
  rw [swapAt_eq_map hj hk, e2]
  exact h2

/-! ### transpose of all dimensions -/

theorem reverseLoop_map (f : Nat → Nat) : ∀ (js l : List Nat), reverseLoop (l.map f) js = (reverseLoop l js).map (fun l => l.map f)
  | [], l => rfl
  | j :: js, l => by
    rw [reverseLoop, reverseLoop, swapAt_map, List.length_map]
    cases swapAt l j (l.length - j - 1) with
    | none => rfl
    | some l' => exact reverseLoop_map f js l'

theorem reverseLoop_aux (l : List Nat) : ∀ (m k : Nat) (cur : List Nat), k + m = l.length / 2 → cur.length = l.length →
    (∀ i (h : i < cur.length), cur[i] = if i < k ∨ l.length - k ≤ i then l.reverse.getD i 0 else l.getD i 0) →
    reverseLoop cur (List.range' k m) = some l.reverse
  | 0, k, cur, hk, hl, hc => by
    rw [List.range'_zero, reverseLoop]
    congr 1
    apply List.ext_getElem
    · simp [hl]
    · intro i h1 h2
      rw [hc i h1]
      split
      · rw [List.getD_eq_getElem _ _ h2]
      · rename_i hn
        have hi : i < l.length := by omega
        have : l.length - 1 - i = i := by omega
        rw [List.getD_eq_getElem _ _ hi, List.getElem_reverse]
        simp only [this]
  | m + 1, k, cur, hk, hl, hc => by
    rw [List.range'_succ, reverseLoop]
    have hk1 : k < cur.length := by omega
    have hk2 : cur.length - k - 1 < cur.length := by omega
    rw [swapAt_spec hk1 hk2, Option.bind_some]
    apply reverseLoop_aux l m (k + 1) _ (by omega) (by simp [hl])
    intro i hi
    have hi' : i < cur.length := by simpa using hi
    simp only [List.getElem_set]
    by_cases e1 : k = i
    · subst e1
      rw [if_pos rfl, if_pos (by omega), hc _ hk2, if_neg (by omega)]
      rw [List.getD_eq_getElem _ _ (by omega), List.getD_eq_getElem _ _ (by simp; omega), List.getElem_reverse]
      congr 1
      omega
    · rw [if_neg e1]
      by_cases e2 : cur.length - k - 1 = i
      · subst e2
        rw [if_pos rfl, if_pos (by omega), hc _ hk1, if_neg (by omega)]
        rw [List.getD_eq_getElem _ _ (by omega), List.getD_eq_getElem _ _ (by simp; omega), List.getElem_reverse]
        congr 1
        omega
      · rw [if_neg e2, hc i hi']
        have : (i < k ∨ l.length - k ≤ i) ↔ (i < k + 1 ∨ l.length - (k + 1) ≤ i) := by omega
        simp only [this]

theorem reverseLoop_spec (l : List Nat) : reverseLoop l (List.range (l.length / 2)) = some l.reverse := by
  rw [List.range_eq_range']
  apply reverseLoop_aux l (l.length / 2) 0 l (by omega) rfl
  intro i h
  rw [if_neg (by omega), List.getD_eq_getElem _ _ h]

theorem reverse_eq_map (l : List Nat) : l.reverse = ((List.range l.length).reverse).map (fun i => l.getD i 0) := by
  rw [List.map_reverse, map_getD_range]

theorem transposeAll_spec {g : Geometry} (h : g.Inv) (hd : g.shape ≠ []) :
    ∃ g', g.transposeAll = some g' ∧ IsPermuted (List.range g.shape.length).reverse g g' := by
  obtain ⟨g', h1, h2⟩ := permuted_of h hd (List.reverse_perm (List.range g.shape.length))
  refine ⟨g', ?_, h1⟩
  unfold transposeAll
  have e1 := reverseLoop_spec g.strides
  have e2 := reverse_eq_map g.strides
  rw [h.length] at e1 e2
  rw [reverseLoop_spec, e1, e2, reverse_eq_map g.shape]
  exact h2

/-! ### shift -/

/-- The positions `0 .. d-1`, each shifted down by `n` modulo `d`. -/
def shifted (d : Nat) (n : Int) : List Nat := (List.range d).map (fun (j : Nat) => (((j : Int) - n) % (d : Int)).toNat)

theorem shifted_perm {d : Nat} (hd : 0 < d) (n : Int) : (shifted d n).Perm (List.range d) := by
  have hd' : (0 : Int) < d := by omega
  apply perm_range_of
  · simp [shifted]
  · intro i hi
    simp only [shifted, List.mem_map, List.mem_range] at hi
    obtain ⟨x, hx, rfl⟩ := hi
    have h1 := Int.emod_nonneg ((x : Int) - n) (by omega : (d : Int) ≠ 0)
    have h2 := Int.emod_lt_of_pos ((x : Int) - n) hd'
    omega
  · unfold shifted
    apply List.Nodup.map_on _ List.nodup_range
    intro x hx y hy hxy
    simp only [List.mem_range] at hx hy
    have h1 := Int.emod_nonneg ((x : Int) - n) (by omega : (d : Int) ≠ 0)
    have h2 := Int.emod_nonneg ((y : Int) - n) (by omega : (d : Int) ≠ 0)
    have h3 : ((x : Int) - n) % d = ((y : Int) - n) % d := by omega
    have h4 : (d : Int) ∣ ((x : Int) - n) - ((y : Int) - n) :=
      Int.dvd_of_emod_eq_zero (Int.emod_eq_emod_iff_emod_sub_eq_zero.mp h3)
    obtain ⟨q, hq⟩ := h4
    have h5 : (x : Int) - y = d * q := by omega
    rcases lt_trichotomy q 0 with hq0 | hq0 | hq0
    · have : (d : Int) * q ≤ d * (-1) := Int.mul_le_mul_of_nonneg_left (by omega) (by omega)
      omega
    · subst hq0; omega
    · have : (d : Int) * 1 ≤ d * q := Int.mul_le_mul_of_nonneg_left (by omega) (by omega)
      omega

end Geometry
end Marray
end OpenGM
