import Verif.Lemmas.ICM
import Mathlib.Algebra.BigOperators.Ring.Finset
import Mathlib.Algebra.BigOperators.Fin
/-
Sums over labelings that agree with a given one outside a set of variables.
-/
namespace OpenGM
namespace BP
open Spec
open scoped Classical
variable {R : Type} [CommSemiring R] {nl : List Nat}

/-- All labelings. -/
noncomputable def Om (nl : List Nat) : Finset (List Nat) := (allTuples nl).toFinset

theorem mem_Om {x : List Nat} : x ∈ Om nl ↔ x.length = nl.length ∧ ∀ v, v < nl.length → x.getD v 0 < nl.getD v 0 := by
  have h := Icm.mem_labelings (p := (⟨nl, []⟩ : Problem Nat)) (x := x)
  simp only [Om, List.mem_toFinset]
  rw [h]
  simp only [Problem.Labeling]
  refine and_congr_right fun hl => ?_
  constructor
  · intro h v hv
    have := h v x[v] nl[v] (by simp) (by simp)
    simpa [List.getD, hv, hl] using this
  · intro h v l n h1 h2
    have hv := (List.getElem?_eq_some_iff.mp h2).1
    have := h v hv
    simpa [List.getD, h1, h2] using this

/-- `y` agrees with `x` outside `S`. -/
def Agree (S : Set Nat) (x y : List Nat) : Prop := ∀ v, v ∉ S → y.getD v 0 = x.getD v 0

/-- The labelings that agree with `x` outside `S`. -/
noncomputable def cyl (nl : List Nat) (S : Set Nat) (x : List Nat) : Finset (List Nat) := (Om nl).filter (Agree S x)

/-- The sum of `g` over all labels of the variables in `S`. -/
noncomputable def sumOver (nl : List Nat) (S : Set Nat) (g : List Nat → R) (x : List Nat) : R := ∑ y ∈ cyl nl S x, g y

/-- `g` does not depend on the variables in `S`. -/
def Indep (nl : List Nat) (S : Set Nat) (g : List Nat → R) : Prop := ∀ y ∈ Om nl, ∀ y' ∈ Om nl, Agree S y y' → g y' = g y

/-- The labels of `a` in `S`, those of `b` elsewhere. -/
noncomputable def merge (nl : List Nat) (S : Set Nat) (a b : List Nat) : List Nat := (List.range nl.length).map (fun v => if v ∈ S then a.getD v 0 else b.getD v 0)

theorem merge_getD {S : Set Nat} {a b : List Nat} {v : Nat} (hv : v < nl.length) : (merge nl S a b).getD v 0 = if v ∈ S then a.getD v 0 else b.getD v 0 := by
  simp [merge, List.getD, hv]

theorem merge_mem {S : Set Nat} {a b : List Nat} (ha : a ∈ Om nl) (hb : b ∈ Om nl) : merge nl S a b ∈ Om nl := by
  rw [mem_Om] at *
  refine ⟨by simp [merge], fun v hv => ?_⟩
  rw [merge_getD hv]
  split
  · exact ha.2 v hv
  · exact hb.2 v hv

theorem Om_ext {a b : List Nat} (ha : a ∈ Om nl) (hb : b ∈ Om nl) (h : ∀ v, v < nl.length → a.getD v 0 = b.getD v 0) : a = b := by
  rw [mem_Om] at ha hb
  apply List.ext_getElem (by rw [ha.1, hb.1])
  intro i h1 h2
  have := h i (by rw [← ha.1]; exact h1)
  simpa [List.getD, h1, h2] using this

theorem Om_out {a b : List Nat} (ha : a ∈ Om nl) (hb : b ∈ Om nl) {v : Nat} (hv : ¬ v < nl.length) : a.getD v 0 = b.getD v 0 := by
  rw [mem_Om] at ha hb
  rw [List.getD, List.getD, List.getElem?_eq_none (by omega), List.getElem?_eq_none (by omega)]

theorem mem_cyl {S : Set Nat} {x y : List Nat} : y ∈ cyl nl S x ↔ y ∈ Om nl ∧ Agree S x y := by simp [cyl]

theorem Agree.refl (S : Set Nat) (x : List Nat) : Agree S x x := fun _ _ => rfl

theorem Agree.mono {S T : Set Nat} (h : S ⊆ T) {x y : List Nat} (ha : Agree S x y) : Agree T x y := fun v hv => ha v (fun h' => hv (h h'))

theorem Indep.mono {S T : Set Nat} (h : S ⊆ T) {g : List Nat → R} (hg : Indep nl T g) : Indep nl S g :=
  fun y hy y' hy' ha => hg y hy y' hy' (ha.mono h)

theorem sumOver_bind {S T : Set Nat} (hd : Disjoint S T) (g : List Nat → R) {x : List Nat} (hx : x ∈ Om nl) :
    sumOver nl (S ∪ T) g x = sumOver nl S (fun y => sumOver nl T g y) x := by
  unfold sumOver
  rw [← Finset.sum_fiberwise_of_maps_to (s := cyl nl (S ∪ T) x) (t := cyl nl S x) (g := fun y => merge nl S y x)]
  · apply Finset.sum_congr rfl
    intro z hz
    rw [mem_cyl] at hz
    apply Finset.sum_congr ?_ (fun _ _ => rfl)
    ext y
    simp only [Finset.mem_filter, mem_cyl]
    constructor
    · rintro ⟨⟨h1, h2⟩, h3⟩
      refine ⟨h1, fun v hv => ?_⟩
      by_cases hvn : v < nl.length
      · rw [← h3, merge_getD hvn]
        split
        · rfl
        · next hs => exact h2 v (by simp [hs, hv])
      · exact Om_out h1 hz.1 hvn
    · rintro ⟨h1, h2⟩
      refine ⟨⟨h1, fun v hv => ?_⟩, ?_⟩
      · simp only [Set.mem_union, not_or] at hv
        rw [h2 v hv.2, hz.2 v hv.1]
      · apply Om_ext (merge_mem h1 hx) hz.1
        intro v hv
        rw [merge_getD hv]
        split
        · next hs => exact h2 v (fun ht => (Set.disjoint_left.mp hd) hs ht)
        · next hs => exact (hz.2 v hs).symm
  · intro y hy
    rw [mem_cyl] at hy ⊢
    refine ⟨merge_mem hy.1 hx, fun v hv => ?_⟩
    by_cases hvn : v < nl.length
    · rw [merge_getD hvn, if_neg hv]
    · exact Om_out (merge_mem hy.1 hx) hx hvn

theorem sumOver_congr {S : Set Nat} {g h : List Nat → R} {x : List Nat} (e : ∀ y ∈ Om nl, g y = h y) : sumOver nl S g x = sumOver nl S h x :=
  Finset.sum_congr rfl (fun y hy => e y (mem_cyl.mp hy).1)

theorem sumOver_mul_left {S : Set Nat} {g h : List Nat → R} {x : List Nat} (hx : x ∈ Om nl) (hh : Indep nl S h) :
    sumOver nl S (fun y => h y * g y) x = h x * sumOver nl S g x := by
  unfold sumOver
  rw [Finset.mul_sum]
  apply Finset.sum_congr rfl
  intro y hy
  rw [mem_cyl] at hy
  simp only [hh x hx y hy.1 hy.2]

theorem sumOver_indep {S T : Set Nat} (hd : Disjoint S T) {g : List Nat → R} (hg : Indep nl S g) : Indep nl S (sumOver nl T g) := by
  intro y hy y' hy' ha
  unfold sumOver
  refine Finset.sum_bij' (fun z _ => merge nl T z y) (fun z _ => merge nl T z y') ?_ ?_ ?_ ?_ ?_
  · intro z hz
    rw [mem_cyl] at *
    refine ⟨merge_mem hz.1 hy, fun v hv => ?_⟩
    by_cases hvn : v < nl.length
    · rw [merge_getD hvn, if_neg hv]
    · exact Om_out (merge_mem hz.1 hy) hy hvn
  · intro z hz
    rw [mem_cyl] at *
    refine ⟨merge_mem hz.1 hy', fun v hv => ?_⟩
    by_cases hvn : v < nl.length
    · rw [merge_getD hvn, if_neg hv]
    · exact Om_out (merge_mem hz.1 hy') hy' hvn
  · intro z hz
    rw [mem_cyl] at hz
    apply Om_ext (merge_mem (merge_mem hz.1 hy) hy') hz.1
    intro v hv
    rw [merge_getD hv]
    split
    · next h => rw [merge_getD hv, if_pos h]
    · next h => exact (hz.2 v h).symm
  · intro z hz
    rw [mem_cyl] at hz
    apply Om_ext (merge_mem (merge_mem hz.1 hy') hy) hz.1
    intro v hv
    rw [merge_getD hv]
    split
    · next h => rw [merge_getD hv, if_pos h]
    · next h => exact (hz.2 v h).symm
  · intro z hz
    rw [mem_cyl] at hz
    refine (hg z hz.1 (merge nl T z y) (merge_mem hz.1 hy) ?_).symm
    intro v hv
    by_cases hvn : v < nl.length
    · rw [merge_getD hvn]
      split
      · rfl
      · next h => rw [hz.2 v h, ha v hv]
    · exact Om_out (merge_mem hz.1 hy) hz.1 hvn

theorem sumOver_split {S T : Set Nat} (hd : Disjoint S T) {g h : List Nat → R} (hg : Indep nl T g) (hh : Indep nl S h) {x : List Nat} (hx : x ∈ Om nl) :
    sumOver nl (S ∪ T) (fun y => g y * h y) x = sumOver nl S g x * sumOver nl T h x := by
  rw [sumOver_bind hd _ hx]
  have e : sumOver nl S (fun y => sumOver nl T (fun y => g y * h y) y) x = sumOver nl S (fun y => sumOver nl T h y * g y) x :=
    sumOver_congr (fun y hy => by rw [sumOver_mul_left hy hg, mul_comm])
  rw [e, sumOver_mul_left hx (sumOver_indep hd hh), mul_comm]

theorem sumOver_empty (g : List Nat → R) {x : List Nat} (hx : x ∈ Om nl) : sumOver nl ∅ g x = g x := by
  unfold sumOver
  have : cyl nl ∅ x = {x} := by
    ext y
    rw [mem_cyl, Finset.mem_singleton]
    constructor
    · rintro ⟨h1, h2⟩
      exact Om_ext h1 hx (fun v _ => h2 v (by simp))
    · rintro rfl
      exact ⟨hx, Agree.refl _ _⟩
  rw [this, Finset.sum_singleton]

theorem Indep.prod {ι : Type} {s : Finset ι} {S : Set Nat} {g : ι → List Nat → R} (h : ∀ i ∈ s, Indep nl S (g i)) : Indep nl S (fun y => ∏ i ∈ s, g i y) :=
  fun y hy y' hy' ha => Finset.prod_congr rfl (fun i hi => h i hi y hy y' hy' ha)

/-- A product of factors over disjoint sets of variables. -/
theorem sumOver_prod {ι : Type} (s : Finset ι) (S : ι → Set Nat) (g : ι → List Nat → R) (hd : ∀ i ∈ s, ∀ j ∈ s, i ≠ j → Disjoint (S i) (S j))
    (hi : ∀ i ∈ s, ∀ j ∈ s, i ≠ j → Indep nl (S j) (g i)) {x : List Nat} (hx : x ∈ Om nl) :
    sumOver nl (⋃ i ∈ s, S i) (fun y => ∏ i ∈ s, g i y) x = ∏ i ∈ s, sumOver nl (S i) (g i) x := by
  induction s using Finset.induction_on with
  | empty => simp [sumOver_empty _ hx]
  | insert a s ha ih =>
    rw [Finset.prod_insert ha, ← ih (fun i hi' j hj => hd i (by simp [hi']) j (by simp [hj])) (fun i hi' j hj => hi i (by simp [hi']) j (by simp [hj]))]
    have e : (⋃ i ∈ insert a s, S i) = S a ∪ ⋃ i ∈ s, S i := by simp
    rw [e, ← sumOver_split ?_ ?_ ?_ hx]
    · congr 1
      funext y
      rw [Finset.prod_insert ha]
    · rw [Set.disjoint_iUnion₂_right]
      intro i his
      exact hd a (by simp) i (by simp [his]) (by rintro rfl; exact ha his)
    · intro y hy y' hy' hag
      -- go from y to y' one set at a time
      have key : ∀ t : Finset ι, t ⊆ s → ∀ z ∈ Om nl, ∀ z' ∈ Om nl, Agree (⋃ i ∈ t, S i) z z' → g a z' = g a z := by
        intro t
        induction t using Finset.induction_on with
        | empty =>
          intro _ z hz z' hz' hh
          have : z' = z := Om_ext hz' hz (fun v _ => hh v (by simp))
          rw [this]
        | insert b t hb iht =>
          intro hts z hz z' hz' hh
          have hbs : b ∈ s := hts (by simp)
          have h1 := hi a (by simp) b (by simp [hbs]) (by rintro rfl; exact ha hbs)
          have h2 : g a (merge nl (S b) z' z) = g a z := h1 z hz _ (merge_mem hz' hz) (fun v hv => by
            by_cases hvn : v < nl.length
            · rw [merge_getD hvn, if_neg hv]
            · exact Om_out (merge_mem hz' hz) hz hvn)
          rw [← h2]
          refine iht (fun i hi' => hts (by simp [hi'])) _ (merge_mem hz' hz) z' hz' ?_
          intro v hv
          by_cases hvn : v < nl.length
          · rw [merge_getD hvn]
            split
            · rfl
            · next hvb =>
              refine hh v ?_
              simp only [Set.mem_iUnion, Finset.mem_insert, not_exists] at hv ⊢
              rintro i (rfl | h') hvi
              · exact hvb hvi
              · exact hv i h' hvi
          · exact Om_out hz' (merge_mem hz' hz) hvn
      exact key s (fun _ h => h) y hy y' hy' hag
    · refine Indep.prod (fun i his => ?_)
      exact hi i (by simp [his]) a (by simp) (by rintro rfl; exact ha his)

end BP
end OpenGM
