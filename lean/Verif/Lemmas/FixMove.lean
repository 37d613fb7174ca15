import Verif.Lemmas.FixFusion
import Verif.Props.AlphaExpansion
import Mathlib.Data.Fintype.Lattice
import Mathlib.Data.Fintype.Pi
/-
One move: the quadratic function of the choice between two labels per variable.
-/
namespace OpenGM.FixFusion
open Spec Hoe
variable {V : Type} [CommRing V] [LinearOrder V]

/-- What QPBO says about a node. -/
def answer (label : Nat → Int) (i : Nat) : Option Bool := if label i = 0 then some false else if label i = 1 then some true else none

/-- The labels that an assignment of the bits chooses. -/
def labelsOf (n : Nat) (L : Bool → Nat → Nat) (x : Nat → Bool) : List Nat := (List.range n).map (fun v => L (x v) v)

theorem labelsOf_getElem? (n : Nat) (L : Bool → Nat → Nat) (x : Nat → Bool) (v : Nat) (hv : v < n) : (labelsOf n L x)[v]? = some (L (x v) v) := by
  simp [labelsOf, hv]

theorem labelsOf_length (n : Nat) (L : Bool → Nat → Nat) (x : Nat → Bool) : (labelsOf n L x).length = n := by simp [labelsOf]

theorem restrict_labelsOf {n : Nat} {L : Bool → Nat → Nat} {x : Nat → Bool} {vars : List Nat} (h : ∀ v ∈ vars, v < n) : restrict (labelsOf n L x) vars = tupleOf vars L x := by
  unfold restrict tupleOf
  apply List.map_congr_left
  intro v hv
  rw [List.getD_eq_getElem?_getD, labelsOf_getElem? n L x v (h v hv)]
  rfl

theorem energy_sum (p : Problem V) (y : List Nat) : p.energy (sumOp V) y = (p.terms.map (fun t => t.value y)).sum := by
  have key : ∀ (l : List V) (a : V), l.foldl (sumOp V).op a = a + l.sum := by
    intro l
    induction l with
    | nil => intro a; simp
    | cons b l ih => intro a; rw [List.foldl_cons, ih, List.sum_cons]; simp only [sumOp]; ring
  unfold Problem.energy
  rw [key]
  simp [sumOp]

theorem energy_choice {gm : GM V} {p : Problem V} (hs : Stores gm p) (L : Bool → Nat → Nat) (x : Nat → Bool) :
    p.energy (sumOp V) (labelsOf gm.numLabels.length L x) = (p.terms.map (fun t => termAt L L t x)).sum := by
  rw [energy_sum]
  congr 1
  apply List.map_congr_left
  intro t ht
  obtain ⟨f, _, hm⟩ := AlphaExpansion.forall₂_mem_right hs.factors t ht
  unfold Term.value termAt
  rw [restrict_labelsOf hm.range]
  simp

theorem labeling_labelsOf {gm : GM V} {p : Problem V} (hs : Stores gm p) {lab : Bool → Nat → Option Nat} {L : Bool → Nat → Nat} (hL : LabelChoice gm.numLabels lab L) (x : Nat → Bool) :
    p.Labeling (labelsOf gm.numLabels.length L x) := by
  refine ⟨by rw [labelsOf_length, hs.labels], ?_⟩
  intro v l n hl hn
  rw [← hs.labels] at hn
  have hv : v < gm.numLabels.length := (List.getElem?_eq_some_iff.1 hn).1
  rw [labelsOf_getElem? _ _ _ _ hv] at hl
  cases hl
  exact (hL.eq (x v) v n hn).2

theorem constantPart_none (ms : List (V × List Nat)) (h : ∀ m ∈ ms, m.2 ≠ []) : constantPart ms = 0 := by
  unfold constantPart
  have : ms.filter (fun m => m.2.isEmpty) = [] := by
    rw [List.filter_eq_nil_iff]
    intro m hm he
    exact h m hm (List.isEmpty_iff.1 he)
  rw [this]; rfl

/-- The polynomial of the choice between two labels per variable. -/
structure Move (D : Nat) (gm : GM V) (p : Problem V) (L : Bool → Nat → Nat) (ms : List (V × List Nat)) : Prop where
  constant : constantPart ms = 0
  range : ∀ m ∈ ms, ∀ v ∈ m.2, v < gm.numLabels.length
  poly : ∀ x, polynomial x ms = p.energy (sumOp V) (labelsOf gm.numLabels.length L x) - p.energy (sumOp V) (labelsOf gm.numLabels.length L (fun _ => false))

variable [IsStrictOrderedRing V]

theorem move_spec {D : Nat} (hD : 2 ≤ D) {gm : GM V} {p : Problem V} (hs : Stores gm p) (hle : ∀ t ∈ p.terms, t.vars.length ≤ D) {lab : Bool → Nat → Option Nat} {L : Bool → Nat → Nat} (hL : LabelChoice gm.numLabels lab L) :
    ∃ h ms, addFactors D gm lab lab gm.factors (addVars construct gm.numberOfVariables).2 = some h ∧ HoeBuilt D h gm.numLabels.length ms ∧ Move D gm p L ms := by
  have hb : HoeBuilt D (addVars (construct : HOE V) gm.numberOfVariables).2 gm.numLabels.length [] := by
    have := HoeBuilt.addVars (D := D) gm.numberOfVariables (HoeBuilt.new (R := V))
    rw [Nat.zero_add] at this
    exact this
  obtain ⟨h, ms, e1, e2, e3, e4⟩ := addFactors_spec hD hs hL hL hs.factors hle _ _ hb
  rw [List.nil_append] at e2
  refine ⟨h, ms, e1, e2, constantPart_none ms e3, (HoeUsed.built e2).range, fun x => ?_⟩
  rw [e4 x, energy_choice hs, energy_choice hs]

theorem move_persistent {D : Nat} (hD : 2 ≤ D) {gm : GM V} {p : Problem V} {L : Bool → Nat → Nat} {ms : List (V × List Nat)} (hm : Move D gm p L ms) {h : HOE V} (hu : HoeUsed D h gm.numLabels.length ms) :
    ∃ h' q, toQuadratic D h QuadraticRep.empty = some (h', q) ∧ HoeUsed D h' gm.numLabels.length ms ∧
      ∀ b : Nat → Option Bool, PersistentFor q.unary q.pairwise b → ∀ x,
        p.energy (sumOp V) (labelsOf gm.numLabels.length L (overwrite b x)) ≤ p.energy (sumOp V) (labelsOf gm.numLabels.length L x) := by
  obtain ⟨h', q, e1, hq⟩ := C71_quadratic hD hu
  refine ⟨h', q, e1, .toQuadratic h' q hu e1, fun b hp x => ?_⟩
  have := C71_persistent hm.range hq b hp x
  rw [hm.poly, hm.poly] at this
  linarith

/-! ### Quadratic functions have minimizers -/

theorem exists_minimizer (unary : List (Nat × V × V)) (pairwise : List (Nat × Nat × V × V × V × V)) : ∃ z, ∀ z', quadraticForm unary pairwise z ≤ quadraticForm unary pairwise z' := by
  obtain ⟨N, hN1, hN2⟩ : ∃ N, (∀ t ∈ unary, t.1 < N) ∧ ∀ t ∈ pairwise, t.1 < N ∧ t.2.1 < N := by
    have b1 : ∀ l : List Nat, ∃ N, ∀ a ∈ l, a < N := by
      intro l
      induction l with
      | nil => exact ⟨0, by simp⟩
      | cons a l ih =>
        obtain ⟨N, h⟩ := ih
        refine ⟨max N (a + 1), fun b hb => ?_⟩
        rcases List.mem_cons.1 hb with rfl | hb
        · omega
        · have := h b hb; omega
    obtain ⟨N, h⟩ := b1 (unary.map (fun t => t.1) ++ (pairwise.map (fun t => t.1) ++ pairwise.map (fun t => t.2.1)))
    exact ⟨N, fun t ht => h _ (by simp; exact Or.inl ⟨_, _, ht⟩), fun t ht => ⟨h _ (List.mem_append_right _ (List.mem_append_left _ (List.mem_map.2 ⟨t, ht, rfl⟩))),
      h _ (List.mem_append_right _ (List.mem_append_right _ (List.mem_map.2 ⟨t, ht, rfl⟩)))⟩⟩
  have hcongr : ∀ z z' : Nat → Bool, (∀ i, i < N → z i = z' i) → quadraticForm unary pairwise z = quadraticForm unary pairwise z' := by
    intro z z' h
    unfold quadraticForm
    congr 2
    · apply List.map_congr_left
      intro t ht
      rw [h _ (hN1 t ht)]
    · apply List.map_congr_left
      intro t ht
      rw [h _ (hN2 t ht).1, h _ (hN2 t ht).2]
  let ext : (Fin N → Bool) → Nat → Bool := fun g i => if h : i < N then g ⟨i, h⟩ else false
  obtain ⟨g, hg⟩ := Finite.exists_min (fun g : Fin N → Bool => quadraticForm unary pairwise (ext g))
  refine ⟨ext g, fun z' => ?_⟩
  have e : quadraticForm unary pairwise z' = quadraticForm unary pairwise (ext (fun i => z' i)) := by
    apply hcongr
    intro i hi
    simp [ext, hi]
  rw [e]
  exact hg (fun i => z' i.1)

open Classical in
/-- A solver that labels everything with a minimizer. -/
noncomputable def exactQpbo (q : QuadraticRep V) (i : Nat) : Int := if (exists_minimizer q.unary q.pairwise).choose i then 1 else 0

theorem exactQpbo_complete (q : QuadraticRep V) (i : Nat) : answer (exactQpbo q) i = some ((exists_minimizer q.unary q.pairwise).choose i) := by
  unfold answer exactQpbo
  cases (exists_minimizer q.unary q.pairwise).choose i <;> simp

theorem exactQpbo_persistent (q : QuadraticRep V) : PersistentFor q.unary q.pairwise (answer (exactQpbo q)) := by
  intro z
  have : overwrite (answer (exactQpbo q)) z = (exists_minimizer q.unary q.pairwise).choose := by
    funext i
    unfold overwrite
    rw [exactQpbo_complete]
    rfl
  rw [this]
  exact (exists_minimizer q.unary q.pairwise).choose_spec z

end OpenGM.FixFusion
