import Verif.Lemmas.FactorBinary
/-
SubShapeWalker over the variables of a factor: fixed and free variables.
-/
namespace OpenGM
open Spec
namespace FactorOps
open Marray Geometry Walkers
variable {V : Type}

/-- Positions, counted from `d`, of the fixed variables. -/
def posFrom (fixed : Nat → Bool) : Nat → List Nat → List Nat
  | _, [] => []
  | d, v :: vs => if fixed v then d :: posFrom fixed (d + 1) vs else posFrom fixed (d + 1) vs

/-- Fixed value, or none, of a variable. -/
def maskOf (fixed : Nat → Bool) (y : Nat → Nat) (v : Nat) : Option Nat := if fixed v then some (y v) else none

theorem posFrom_ge (fixed : Nat → Bool) : ∀ (vs : List Nat) (d : Nat), ∀ i ∈ posFrom fixed d vs, d ≤ i ∧ i < d + vs.length
  | [], d, i, h => by simp [posFrom] at h
  | v :: vs, d, i, h => by
    unfold posFrom at h
    have ih := posFrom_ge fixed vs (d + 1) i
    simp only [List.length_cons]
    split at h
    · rcases List.mem_cons.mp h with rfl | h
      · omega
      · have := ih h; omega
    · have := ih h; omega

theorem rem_posFrom (fixed : Nat → Bool) (y : Nat → Nat) : ∀ (vs : List Nat) (d : Nat),
    Rem d (posFrom fixed d vs) ((vs.filter fixed).map y)
  | [], d => ⟨by simp [posFrom], by simp [posFrom], by simp [posFrom]⟩
  | v :: vs, d => by
    have ih := rem_posFrom fixed y vs (d + 1)
    refine ⟨?_, ?_, fun i hi => (posFrom_ge fixed (v :: vs) d i hi).1⟩
    · unfold posFrom
      by_cases h : fixed v
      · simp [h, ih.len]
      · simp only [h, Bool.false_eq_true, if_false]
        rw [List.filter_cons_of_neg (by simpa using h)]
        exact ih.len
    · unfold posFrom
      split
      · exact List.pairwise_cons.mpr ⟨fun i hi => (posFrom_ge fixed vs (d + 1) i hi).1, ih.sorted⟩
      · exact ih.sorted

theorem maskFrom_posFrom (fixed : Nat → Bool) (y : Nat → Nat) : ∀ (vs : List Nat) (d : Nat),
    maskFrom vs.length d (posFrom fixed d vs) ((vs.filter fixed).map y) = vs.map (maskOf fixed y)
  | [], _ => rfl
  | v :: vs, d => by
    have ih := maskFrom_posFrom fixed y vs (d + 1)
    by_cases h : fixed v
    · simp only [posFrom, h, if_true, List.filter_cons_of_pos, List.map_cons, List.length_cons, maskFrom, ih, maskOf]
    · simp only [posFrom, h, Bool.false_eq_true, if_false, List.map_cons, List.length_cons]
      rw [List.filter_cons_of_neg (by simpa using h)]
      have hge := posFrom_ge fixed vs (d + 1)
      have hlen := (rem_posFrom fixed y vs (d + 1)).len
      have hm : maskOf fixed y v = none := by simp [maskOf, h]
      rw [hm]
      cases hp : posFrom fixed (d + 1) vs with
      | nil =>
        rw [hp] at ih hlen
        have : (vs.filter fixed).map y = [] := List.length_eq_zero_iff.mp (by simpa using hlen.symm)
        rw [this] at ih ⊢
        simp only [maskFrom, ih]
      | cons i r =>
        rw [hp] at ih hlen
        cases hq : (vs.filter fixed).map y with
        | nil => rw [hq] at hlen; simp at hlen
        | cons u rv =>
          have hi := (hge i (by rw [hp]; simp)).1
          rw [hq] at ih
          unfold maskFrom
          rw [if_neg (by omega), ih]

theorem freeShape_mask (fixed : Nat → Bool) (y L : Nat → Nat) : ∀ vs : List Nat,
    freeShape (vs.map (maskOf fixed y)) (vs.map L) = (vs.filter (fun v => !fixed v)).map L
  | [] => rfl
  | v :: vs => by
    have ih := freeShape_mask fixed y L vs
    by_cases h : fixed v
    · simp [maskOf, h, freeShape, ih]
    · simp [maskOf, h, freeShape, ih]

theorem embed_mask (fixed : Nat → Bool) (y z : Nat → Nat) : ∀ vs : List Nat,
    embed (vs.map (maskOf fixed y)) ((vs.filter (fun v => !fixed v)).map z) = vs.map (fun v => if fixed v then y v else z v)
  | [] => rfl
  | v :: vs => by
    have ih := embed_mask fixed y z vs
    by_cases h : fixed v
    · simp [maskOf, h, embed, ih]
    · simp [maskOf, h, embed, ih]

theorem embed_length : ∀ (m : List (Option Nat)) (s t : List Nat), m.length = s.length → InShape (freeShape m s) t → (embed m t).length = m.length
  | [], _, _, _, _ => rfl
  | none :: m, n :: s, x :: t, hl, h => by
    simp only [freeShape, InShape] at h
    simp [embed, embed_length m s t (by simpa using hl) h.2]
  | none :: m, n :: s, [], hl, h => by simp [freeShape, InShape] at h
  | none :: _, [], _, hl, _ => by simp at hl
  | some v :: m, n :: s, t, hl, h => by
    simp only [freeShape] at h
    simp [embed, embed_length m s t (by simpa using hl) h]
  | some _ :: _, [], _, hl, _ => by simp at hl

theorem override_map (x z : Nat → Nat) : ∀ (vs : List Nat) (w : Nat), override x vs (vs.map z) w = if w ∈ vs then z w else x w
  | [], w => by simp [override]
  | v :: vs, w => by
    simp only [List.map_cons, override, override_map x z vs w, List.mem_cons]
    by_cases h : w = v
    · simp [h]
    · simp [h]

/-- The walker over the free variables of a factor, with the others fixed to the labels given by `y`. -/
theorem visits_sub (fixed : Nat → Bool) (y L : Nat → Nat) {vs : List Nat} (hp : ∀ v ∈ vs, 0 < L v) (hnd : vs.Nodup) :
    subSize (vs.map L) (posFrom fixed 0 vs) = some ((vs.filter (fun v => !fixed v)).map L).prod ∧
    ∃ start, subInit (vs.map L).length (posFrom fixed 0 vs) ((vs.filter fixed).map y) = some start ∧
      Visits (subNext (vs.map L) (posFrom fixed 0 vs)) start
        ((allTuples ((vs.filter (fun v => !fixed v)).map L)).map
          (fun t => vs.map (fun v => if fixed v then y v else labelingOf (vs.filter (fun v => !fixed v)) t v))) := by
  have hrem := rem_posFrom fixed y vs 0
  have hmask := maskFrom_posFrom fixed y vs 0
  have hlen : (vs.map L).length = vs.length := by simp
  have hfree := freeShape_mask fixed y L vs
  have hndf : (vs.filter (fun v => !fixed v)).Nodup := hnd.filter _
  have hpf : Positive ((vs.filter (fun v => !fixed v)).map L) := positive_map (fun v hv => hp v (List.mem_of_mem_filter hv))
  constructor
  · rw [subSize_spec hrem, hlen, hmask, hfree]
  · refine ⟨_, subInit_spec hrem (by intro i hi; have := posFrom_ge fixed vs 0 i hi; simpa using this.2), ?_⟩
    have hv := visits_allTuples (subNext (vs.map L) (posFrom fixed 0 vs)) ((vs.filter (fun v => !fixed v)).map L) hpf
      (embed (vs.map (maskOf fixed y)))
      (by
        intro t t' hs h
        have h1 := subNext_spec (shape := vs.map L) (t := t) (t' := t') hrem (by rw [hlen, hmask, hfree]; exact hs)
          (by rw [hlen, hmask, hfree]; exact h)
        rwa [hlen, hmask] at h1)
      (by
        intro t ht
        refine subLoop_total _ _ _ _ _ ?_ (by simp)
        rw [embed_length _ (vs.map L) t (by simp) (by rw [hfree]; exact ht)]
        simp)
    rw [hlen, hmask, hfree]
    have he : (allTuples ((vs.filter (fun v => !fixed v)).map L)).map (embed (vs.map (maskOf fixed y))) =
        (allTuples ((vs.filter (fun v => !fixed v)).map L)).map
          (fun t => vs.map (fun v => if fixed v then y v else labelingOf (vs.filter (fun v => !fixed v)) t v)) := by
      apply List.map_congr_left
      intro t ht
      have hin := (mem_allTuples _ _).mp ht
      conv_lhs => rw [← (labelingOf_spec hndf hin).1]
      exact embed_mask fixed y _ vs
    rw [← he]
    exact hv

end FactorOps
end OpenGM
