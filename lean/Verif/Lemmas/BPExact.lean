import Verif.Lemmas.BPGraph
import Verif.Lemmas.BPSum
import Verif.Spec.FactorGraph
/-
The exact messages of a forest and their recursion.
-/
namespace OpenGM
namespace BP
open Spec
open scoped Classical
variable {R : Type} [CommSemiring R] {nl : List Nat} {scopes : List (List Nat)} {φ : Nat → List Nat → R}

/-- Variables on a side. -/
def sideV (scopes : List (List Nat)) (a b : Nat ⊕ Nat) : Set Nat := {u | .inl u ∈ side (bipartite scopes) a b}

/-- Factors on a side. -/
noncomputable def sideF (scopes : List (List Nat)) (a b : Nat ⊕ Nat) : Finset Nat := (Finset.range scopes.length).filter (fun g => .inr g ∈ side (bipartite scopes) a b)

/-- The exact message from a variable to a factor. -/
noncomputable def exVF (nl : List Nat) (scopes : List (List Nat)) (φ : Nat → List Nat → R) (v f : Nat) (x : List Nat) : R :=
  sumOver nl (sideV scopes (.inl v) (.inr f) \ {v}) (fun y => ∏ g ∈ sideF scopes (.inl v) (.inr f), φ g y) x

/-- The exact message from a factor to a variable. -/
noncomputable def exFV (nl : List Nat) (scopes : List (List Nat)) (φ : Nat → List Nat → R) (f v : Nat) (x : List Nat) : R :=
  sumOver nl (sideV scopes (.inr f) (.inl v)) (fun y => ∏ g ∈ sideF scopes (.inr f) (.inl v), φ g y) x

/-- The variables of factor `f`. -/
def scopeOf (scopes : List (List Nat)) (f : Nat) : List Nat := scopes.getD f []

theorem mem_scopeOf {f v : Nat} : v ∈ scopeOf scopes f ↔ ∃ s : List Nat, scopes[f]? = some s ∧ v ∈ s := by
  unfold scopeOf
  rw [List.getD]
  cases h : scopes[f]? with
  | none => simp
  | some s => simp

theorem adj_iff {v f : Nat} : (bipartite scopes).Adj (.inl v) (.inr f) ↔ v ∈ scopeOf scopes f := by
  rw [mem_scopeOf]; rfl

theorem adj_iff' {v f : Nat} : (bipartite scopes).Adj (.inr f) (.inl v) ↔ v ∈ scopeOf scopes f := by
  rw [SimpleGraph.adj_comm, adj_iff]

theorem scope_lt {v f : Nat} (h : v ∈ scopeOf scopes f) : f < scopes.length := by
  rw [mem_scopeOf] at h
  obtain ⟨s, h, _⟩ := h
  exact (List.getElem?_eq_some_iff.mp h).1

/-- The factors of variable `v`. -/
noncomputable def factorsOf (scopes : List (List Nat)) (v : Nat) : Finset Nat := (Finset.range scopes.length).filter (fun f => v ∈ scopeOf scopes f)

theorem mem_factorsOf {v f : Nat} : f ∈ factorsOf scopes v ↔ v ∈ scopeOf scopes f := by
  simp only [factorsOf, Finset.mem_filter, Finset.mem_range]
  exact ⟨fun h => h.2, fun h => ⟨scope_lt h, h⟩⟩

/-- The value of a factor depends on its variables only. -/
def Local (nl : List Nat) (scopes : List (List Nat)) (φ : Nat → List Nat → R) : Prop :=
  ∀ f S, (∀ v ∈ scopeOf scopes f, v ∉ S) → Indep nl S (φ f)

theorem neighbour_left {a : Nat ⊕ Nat} {v : Nat} (h : (bipartite scopes).Adj a (.inl v)) : ∃ g, a = .inr g ∧ v ∈ scopeOf scopes g := by
  cases a with
  | inl u => exact absurd h (by simp [bipartite])
  | inr g => exact ⟨g, rfl, adj_iff'.mp h⟩

theorem neighbour_right {a : Nat ⊕ Nat} {f : Nat} (h : (bipartite scopes).Adj a (.inr f)) : ∃ w, a = .inl w ∧ w ∈ scopeOf scopes f := by
  cases a with
  | inl u => exact ⟨u, rfl, adj_iff.mp h⟩
  | inr g => exact absurd h (by simp [bipartite])

variable (hG : (bipartite scopes).IsAcyclic) (hφ : Local nl scopes φ)
include hG

theorem scope_in_side_of_factor {f v : Nat} (hv : v ∈ scopeOf scopes f) {g w : Nat} (hg : .inr g ∈ side (bipartite scopes) (.inr f) (.inl v)) (hw : w ∈ scopeOf scopes g) :
    .inl w ∈ side (bipartite scopes) (.inr f) (.inl v) ∨ w = v := by
  by_cases h : w = v
  · exact Or.inr h
  · refine Or.inl (side_step hg (adj_iff'.mpr hw) ?_)
    intro he
    rw [Sym2.eq_iff] at he
    rcases he with ⟨_, he⟩ | ⟨he, _⟩
    · exact h (Sum.inl_injective he)
    · cases he

theorem scope_in_side_of_var {f v : Nat} (hv : v ∈ scopeOf scopes f) {g w : Nat} (hg : .inr g ∈ side (bipartite scopes) (.inl v) (.inr f)) (hw : w ∈ scopeOf scopes g) :
    .inl w ∈ side (bipartite scopes) (.inl v) (.inr f) := by
  refine side_step hg (adj_iff'.mpr hw) ?_
  intro he
  rw [Sym2.eq_iff] at he
  rcases he with ⟨he, _⟩ | ⟨he, _⟩
  · cases he
  · have := Sum.inr_injective he
    subst this
    exact not_mem_side hG (adj_iff.mpr hv) hg

/-- The union of the sides of some neighbours of a variable. -/
theorem star_var (hφ : Local nl scopes φ) {v : Nat} (N : Finset Nat) (hN : ∀ g ∈ N, v ∈ scopeOf scopes g) {x : List Nat} (hx : x ∈ Om nl) :
    sumOver nl (⋃ g ∈ N, sideV scopes (.inr g) (.inl v)) (fun y => ∏ g ∈ N, ∏ h ∈ sideF scopes (.inr g) (.inl v), φ h y) x = ∏ g ∈ N, exFV nl scopes φ g v x := by
  unfold exFV
  apply sumOver_prod N (fun g => sideV scopes (.inr g) (.inl v)) (fun g y => ∏ h ∈ sideF scopes (.inr g) (.inl v), φ h y)
  · intro g hg g' hg' hne
    rw [Set.disjoint_left]
    intro u h1 h2
    exact side_disjoint hG (adj_iff'.mpr (hN g hg)) (adj_iff'.mpr (hN g' hg')) (by simpa using hne) h1 h2
  · intro g hg g' hg' hne
    refine Indep.prod (fun h hh => hφ h _ (fun w hw hws => ?_))
    simp only [sideF, Finset.mem_filter] at hh
    rcases scope_in_side_of_factor hG (hN g hg) hh.2 hw with h1 | rfl
    · exact side_disjoint hG (adj_iff'.mpr (hN g hg)) (adj_iff'.mpr (hN g' hg')) (by simpa using hne) h1 hws
    · exact not_mem_side hG (adj_iff'.mpr (hN g' hg')) hws
  · exact hx

/-- The union of the sides of some variables of a factor. -/
theorem star_fac (hφ : Local nl scopes φ) {f : Nat} (W : Finset Nat) (hW : ∀ w ∈ W, w ∈ scopeOf scopes f) {x : List Nat} (hx : x ∈ Om nl) :
    sumOver nl (⋃ w ∈ W, sideV scopes (.inl w) (.inr f) \ {w}) (fun y => ∏ w ∈ W, ∏ h ∈ sideF scopes (.inl w) (.inr f), φ h y) x = ∏ w ∈ W, exVF nl scopes φ w f x := by
  unfold exVF
  apply sumOver_prod W (fun w => sideV scopes (.inl w) (.inr f) \ {w}) (fun w y => ∏ h ∈ sideF scopes (.inl w) (.inr f), φ h y)
  · intro w hw w' hw' hne
    rw [Set.disjoint_left]
    intro u h1 h2
    exact side_disjoint hG (adj_iff.mpr (hW w hw)) (adj_iff.mpr (hW w' hw')) (by simpa using hne) h1.1 h2.1
  · intro w hw w' hw' hne
    refine Indep.prod (fun h hh => hφ h _ (fun u hu hus => ?_))
    simp only [sideF, Finset.mem_filter] at hh
    exact side_disjoint hG (adj_iff.mpr (hW w hw)) (adj_iff.mpr (hW w' hw')) (by simpa using hne) (scope_in_side_of_var hG (hW w hw) hh.2 hu) hus.1
  · exact hx

/-- The recursion for messages from variables. -/
theorem exVF_rec (hφ : Local nl scopes φ) {v f : Nat} (hv : v ∈ scopeOf scopes f) {x : List Nat} (hx : x ∈ Om nl) :
    exVF nl scopes φ v f x = ∏ g ∈ (factorsOf scopes v).erase f, exFV nl scopes φ g v x := by
  have hN : ∀ g ∈ (factorsOf scopes v).erase f, v ∈ scopeOf scopes g := fun g hg => mem_factorsOf.mp (Finset.mem_of_mem_erase hg)
  rw [← star_var hG hφ _ hN hx]
  unfold exVF
  have e1 : sideV scopes (.inl v) (.inr f) \ {v} = ⋃ g ∈ (factorsOf scopes v).erase f, sideV scopes (.inr g) (.inl v) := by
    ext u
    simp only [Set.mem_diff, Set.mem_singleton_iff, Set.mem_iUnion, Finset.mem_erase, mem_factorsOf]
    constructor
    · rintro ⟨h1, h2⟩
      obtain ⟨c, c1, c2, c3⟩ := side_cases hG h1 (by simpa using h2)
      obtain ⟨g, rfl, hg⟩ := neighbour_left c1
      exact ⟨g, ⟨by simpa using c2, hg⟩, c3⟩
    · rintro ⟨g, ⟨h1, h2⟩, h3⟩
      refine ⟨side_sub hG (adj_iff'.mpr h2) (by simpa using h1) h3, ?_⟩
      rintro rfl
      exact not_mem_side hG (adj_iff'.mpr h2) h3
  rw [e1]
  apply sumOver_congr
  intro y _
  rw [← Finset.prod_biUnion]
  · apply Finset.prod_congr ?_ (fun _ _ => rfl)
    ext h
    simp only [sideF, Finset.mem_filter, Finset.mem_biUnion, Finset.mem_erase, mem_factorsOf]
    constructor
    · rintro ⟨h1, h2⟩
      obtain ⟨c, c1, c2, c3⟩ := side_cases hG h2 (by simp)
      obtain ⟨g, rfl, hg⟩ := neighbour_left c1
      exact ⟨g, ⟨by simpa using c2, hg⟩, h1, c3⟩
    · rintro ⟨g, ⟨h1, h2⟩, h3, h4⟩
      exact ⟨h3, side_sub hG (adj_iff'.mpr h2) (by simpa using h1) h4⟩
  · intro g hg g' hg' hne
    rw [Function.onFun, Finset.disjoint_left]
    intro h h1 h2
    simp only [sideF, Finset.mem_filter] at h1 h2
    exact side_disjoint hG (adj_iff'.mpr (hN g hg)) (adj_iff'.mpr (hN g' hg')) (by simpa using hne) h1.2 h2.2

/-- The product over a factor and the sides of some of its variables. -/
theorem fac_core (hφ : Local nl scopes φ) {f : Nat} (hf : f < scopes.length) (W : Finset Nat) (hW : ∀ w ∈ W, w ∈ scopeOf scopes f) {S : Set Nat} {F : Finset Nat} {D : Set Nat}
    (hS : S = ⋃ w ∈ W, sideV scopes (.inl w) (.inr f) \ {w}) (hD : ∀ v ∈ scopeOf scopes f, v ∉ S)
    (hF : ∀ h, h ∈ F ↔ h = f ∨ ∃ w ∈ W, h ∈ sideF scopes (.inl w) (.inr f)) {x : List Nat} (hx : x ∈ Om nl) :
    sumOver nl S (fun y => ∏ g ∈ F, φ g y) x = φ f x * ∏ w ∈ W, exVF nl scopes φ w f x := by
  rw [← star_fac hG hφ W hW hx, ← hS, ← sumOver_mul_left hx (hφ f _ hD)]
  apply sumOver_congr
  intro y _
  have e : F = insert f (W.biUnion (fun w => sideF scopes (.inl w) (.inr f))) := by
    ext h
    rw [hF]
    simp
  rw [e, Finset.prod_insert, Finset.prod_biUnion]
  · intro w hw w' hw' hne
    rw [Function.onFun, Finset.disjoint_left]
    intro h h1 h2
    simp only [sideF, Finset.mem_filter] at h1 h2
    exact side_disjoint hG (adj_iff.mpr (hW w hw)) (adj_iff.mpr (hW w' hw')) (by simpa using hne) h1.2 h2.2
  · intro h
    rw [Finset.mem_biUnion] at h
    obtain ⟨w, hw, h⟩ := h
    simp only [sideF, Finset.mem_filter] at h
    exact not_mem_side hG (adj_iff.mpr (hW w hw)) h.2

/-- The recursion for messages from factors. -/
theorem exFV_rec (hφ : Local nl scopes φ) {v f : Nat} (hv : v ∈ scopeOf scopes f) {x : List Nat} (hx : x ∈ Om nl) :
    exFV nl scopes φ f v x = sumOver nl {w | w ∈ scopeOf scopes f ∧ w ≠ v} (fun y => φ f y * ∏ w ∈ (scopeOf scopes f).toFinset.erase v, exVF nl scopes φ w f y) x := by
  have hW : ∀ w ∈ (scopeOf scopes f).toFinset.erase v, w ∈ scopeOf scopes f := fun w hw => by simpa using Finset.mem_of_mem_erase hw
  set D : Set Nat := {w | w ∈ scopeOf scopes f ∧ w ≠ v} with hDdef
  set S : Set Nat := ⋃ w ∈ (scopeOf scopes f).toFinset.erase v, sideV scopes (.inl w) (.inr f) \ {w} with hSdef
  have hDS : ∀ u ∈ scopeOf scopes f, u ∉ S := by
    intro u hu hus
    simp only [hSdef, Set.mem_iUnion, Set.mem_diff, Set.mem_singleton_iff] at hus
    obtain ⟨w, hw, h1, h2⟩ := hus
    exact side_disjoint hG (adj_iff.mpr (hW w hw)) (adj_iff.mpr hu) (by simpa using Ne.symm h2) h1 (self_mem_side _ _)
  have e : sideV scopes (.inr f) (.inl v) = D ∪ S := by
    ext u
    simp only [hDdef, hSdef, Set.mem_union, Set.mem_setOf_eq, Set.mem_iUnion, Set.mem_diff, Set.mem_singleton_iff, Finset.mem_erase, List.mem_toFinset]
    constructor
    · intro h
      obtain ⟨c, c1, c2, c3⟩ := side_cases hG h (by simp)
      obtain ⟨w, rfl, hw⟩ := neighbour_right c1
      by_cases huw : u = w
      · subst huw
        exact Or.inl ⟨hw, by simpa using c2⟩
      · exact Or.inr ⟨w, ⟨by simpa using c2, hw⟩, c3, huw⟩
    · rintro (⟨h1, h2⟩ | ⟨w, ⟨h1, h2⟩, h3, _⟩)
      · exact side_sub hG (adj_iff.mpr h1) (by simpa using h2) (self_mem_side _ _)
      · exact side_sub hG (adj_iff.mpr h2) (by simpa using h1) h3
  unfold exFV
  rw [e, sumOver_bind ?_ _ hx]
  · apply sumOver_congr
    intro y hy
    refine fac_core (D := D) hG hφ (scope_lt hv) _ hW hSdef hDS ?_ hy
    intro h
    simp only [sideF, Finset.mem_filter, Finset.mem_range, Finset.mem_erase, List.mem_toFinset]
    constructor
    · rintro ⟨h1, h2⟩
      by_cases hhf : h = f
      · exact Or.inl hhf
      · obtain ⟨c, c1, c2, c3⟩ := side_cases hG h2 (by simpa using hhf)
        obtain ⟨w, rfl, hw⟩ := neighbour_right c1
        exact Or.inr ⟨w, ⟨by simpa using c2, hw⟩, h1, c3⟩
    · rintro (rfl | ⟨w, ⟨h1, h2⟩, h3, h4⟩)
      · exact ⟨scope_lt hv, self_mem_side _ _⟩
      · exact ⟨h3, side_sub hG (adj_iff.mpr h2) (by simpa using h1) h4⟩
  · rw [Set.disjoint_left]
    intro u h1 h2
    exact hDS u h1.1 h2

/-- The variables and factors that are connected with a node. -/
def compV (scopes : List (List Nat)) (a : Nat ⊕ Nat) : Set Nat := {u | (bipartite scopes).Reachable a (.inl u)}

noncomputable def compF (scopes : List (List Nat)) (a : Nat ⊕ Nat) : Finset Nat := (Finset.range scopes.length).filter (fun g => (bipartite scopes).Reachable a (.inr g))

/-- All messages to a variable together. -/
theorem belief_var (hφ : Local nl scopes φ) {v : Nat} {x : List Nat} (hx : x ∈ Om nl) :
    sumOver nl (compV scopes (.inl v) \ {v}) (fun y => ∏ g ∈ compF scopes (.inl v), φ g y) x = ∏ g ∈ factorsOf scopes v, exFV nl scopes φ g v x := by
  have hN : ∀ g ∈ factorsOf scopes v, v ∈ scopeOf scopes g := fun g hg => mem_factorsOf.mp hg
  rw [← star_var hG hφ _ hN hx]
  have e1 : compV scopes (.inl v) \ {v} = ⋃ g ∈ factorsOf scopes v, sideV scopes (.inr g) (.inl v) := by
    ext u
    simp only [Set.mem_diff, Set.mem_singleton_iff, Set.mem_iUnion, mem_factorsOf]
    constructor
    · rintro ⟨h1, h2⟩
      obtain ⟨c, c1, c3⟩ := reachable_cases h1 (by simpa using h2)
      obtain ⟨g, rfl, hg⟩ := neighbour_left c1
      exact ⟨g, hg, c3⟩
    · rintro ⟨g, h2, h3⟩
      refine ⟨(adj_iff.mpr h2).reachable.trans (side_reachable h3), ?_⟩
      rintro rfl
      exact not_mem_side hG (adj_iff'.mpr h2) h3
  rw [e1]
  apply sumOver_congr
  intro y _
  rw [← Finset.prod_biUnion]
  · apply Finset.prod_congr ?_ (fun _ _ => rfl)
    ext h
    simp only [compF, sideF, Finset.mem_filter, Finset.mem_biUnion, mem_factorsOf]
    constructor
    · rintro ⟨h1, h2⟩
      obtain ⟨c, c1, c3⟩ := reachable_cases h2 (by simp)
      obtain ⟨g, rfl, hg⟩ := neighbour_left c1
      exact ⟨g, hg, h1, c3⟩
    · rintro ⟨g, h2, h3, h4⟩
      exact ⟨h3, (adj_iff.mpr h2).reachable.trans (side_reachable h4)⟩
  · intro g hg g' hg' hne
    rw [Function.onFun, Finset.disjoint_left]
    intro h h1 h2
    simp only [sideF, Finset.mem_filter] at h1 h2
    exact side_disjoint hG (adj_iff'.mpr (hN g hg)) (adj_iff'.mpr (hN g' hg')) (by simpa using hne) h1.2 h2.2

/-- A factor with all messages to it. -/
theorem belief_fac (hφ : Local nl scopes φ) {f : Nat} (hf : f < scopes.length) {x : List Nat} (hx : x ∈ Om nl) :
    sumOver nl {u | u ∈ compV scopes (.inr f) ∧ u ∉ scopeOf scopes f} (fun y => ∏ g ∈ compF scopes (.inr f), φ g y) x =
      φ f x * ∏ w ∈ (scopeOf scopes f).toFinset, exVF nl scopes φ w f x := by
  have hW : ∀ w ∈ (scopeOf scopes f).toFinset, w ∈ scopeOf scopes f := fun w hw => by simpa using hw
  refine fac_core (D := ∅) hG hφ hf _ hW ?_ (fun v hv h => h.2 hv) ?_ hx
  · ext u
    simp only [Set.mem_setOf_eq, Set.mem_iUnion, Set.mem_diff, Set.mem_singleton_iff, List.mem_toFinset]
    constructor
    · rintro ⟨h1, h2⟩
      obtain ⟨c, c1, c3⟩ := reachable_cases h1 (by simp)
      obtain ⟨w, rfl, hw⟩ := neighbour_right c1
      refine ⟨w, hw, c3, ?_⟩
      rintro rfl
      exact h2 hw
    · rintro ⟨w, hw, h1, h2⟩
      refine ⟨(adj_iff'.mpr hw).reachable.trans (side_reachable h1), fun hu => ?_⟩
      exact side_disjoint hG (adj_iff.mpr hw) (adj_iff.mpr hu) (by simpa using Ne.symm h2) h1 (self_mem_side _ _)
  · intro h
    simp only [compF, sideF, Finset.mem_filter, Finset.mem_range, List.mem_toFinset]
    constructor
    · rintro ⟨h1, h2⟩
      by_cases hhf : h = f
      · exact Or.inl hhf
      · obtain ⟨c, c1, c3⟩ := reachable_cases h2 (by simpa using hhf)
        obtain ⟨w, rfl, hw⟩ := neighbour_right c1
        exact Or.inr ⟨w, hw, h1, c3⟩
    · rintro (rfl | ⟨w, h2, h3, h4⟩)
      · exact ⟨hf, SimpleGraph.Reachable.refl _⟩
      · exact ⟨h3, (adj_iff'.mpr h2).reachable.trans (side_reachable h4)⟩

omit hG in
theorem scope_comp {a : Nat ⊕ Nat} {g w : Nat} (hw : w ∈ scopeOf scopes g) : (bipartite scopes).Reachable a (.inr g) ↔ (bipartite scopes).Reachable a (.inl w) :=
  ⟨fun h => h.trans (adj_iff'.mpr hw).reachable, fun h => h.trans (adj_iff.mpr hw).reachable⟩

omit hG in
/-- The rest of the model contributes the same for all labels. -/
theorem comp_rest (hφ : Local nl scopes φ) (a : Nat ⊕ Nat) (D : Set Nat) (hD : ∀ u ∈ D, u ∈ compV scopes a) :
    ∃ C : R, ∀ x ∈ Om nl, sumOver nl Dᶜ (fun y => ∏ g ∈ Finset.range scopes.length, φ g y) x =
      C * sumOver nl (compV scopes a \ D) (fun y => ∏ g ∈ compF scopes a, φ g y) x := by
  by_cases hne : (Om nl).Nonempty
  · obtain ⟨x0, hx0⟩ := hne
    set F' : Finset Nat := (Finset.range scopes.length).filter (fun g => ¬ (bipartite scopes).Reachable a (.inr g)) with hF'
    have hI : Indep nl (compV scopes a) (fun y => ∏ g ∈ F', φ g y) := by
      refine Indep.prod (fun g hg => hφ g _ (fun w hw hwc => ?_))
      simp only [hF', Finset.mem_filter] at hg
      exact hg.2 ((scope_comp hw).mpr hwc)
    have hI2 : Indep nl (compV scopes a)ᶜ (fun y => ∏ g ∈ compF scopes a, φ g y) := by
      refine Indep.prod (fun g hg => hφ g _ (fun w hw hwc => ?_))
      simp only [compF, Finset.mem_filter] at hg
      exact hwc ((scope_comp hw).mp hg.2)
    have hdis : Disjoint (compV scopes a) (compV scopes a)ᶜ := disjoint_compl_right
    refine ⟨sumOver nl (compV scopes a)ᶜ (fun y => ∏ g ∈ F', φ g y) x0, fun x hx => ?_⟩
    have e : Dᶜ = (compV scopes a \ D) ∪ (compV scopes a)ᶜ := by
      ext u
      simp only [Set.mem_compl_iff, Set.mem_union, Set.mem_diff]
      constructor
      · intro h
        by_cases hu : u ∈ compV scopes a
        · exact Or.inl ⟨hu, h⟩
        · exact Or.inr hu
      · rintro (h | h)
        · exact h.2
        · exact fun hd => h (hD u hd)
    have e2 : sumOver nl (compV scopes a)ᶜ (fun y => ∏ g ∈ F', φ g y) x0 = sumOver nl (compV scopes a)ᶜ (fun y => ∏ g ∈ F', φ g y) x := by
      unfold sumOver
      -- both sides only depend on the labels in the component, on which the product does not depend
      have h1 := sumOver_indep hdis hI
      have h2 : sumOver nl (compV scopes a)ᶜ (fun y => ∏ g ∈ F', φ g y) (merge nl (compV scopes a) x x0) =
          sumOver nl (compV scopes a)ᶜ (fun y => ∏ g ∈ F', φ g y) x0 := h1 x0 hx0 _ (merge_mem hx hx0) (fun v hv => by
        by_cases hvn : v < nl.length
        · rw [merge_getD hvn, if_neg hv]
        · exact Om_out (merge_mem hx hx0) hx0 hvn)
      change sumOver nl _ _ x0 = sumOver nl _ _ x
      rw [← h2]
      unfold sumOver
      have : cyl nl (compV scopes a)ᶜ (merge nl (compV scopes a) x x0) = cyl nl (compV scopes a)ᶜ x := by
        ext y
        rw [mem_cyl, mem_cyl]
        refine and_congr_right fun hy => ?_
        constructor
        · intro h v hv
          rw [h v hv]
          by_cases hvn : v < nl.length
          · rw [merge_getD hvn, if_pos (by simpa using hv)]
          · exact Om_out (merge_mem hx hx0) hx hvn
        · intro h v hv
          rw [h v hv]
          by_cases hvn : v < nl.length
          · rw [merge_getD hvn, if_pos (by simpa using hv)]
          · exact Om_out hx (merge_mem hx hx0) hvn
      rw [this]
    rw [e, e2, mul_comm, ← sumOver_split (Set.disjoint_of_subset_left Set.diff_subset hdis) hI2 (hI.mono Set.diff_subset) hx]
    apply sumOver_congr
    intro y _
    rw [compF, hF', Finset.prod_filter_mul_prod_filter_not]
  · exact ⟨0, fun x hx => absurd ⟨x, hx⟩ hne⟩

end BP
end OpenGM
