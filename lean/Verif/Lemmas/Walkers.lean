import Verif.Model.Walkers
import Verif.Spec.Slices
import Verif.Lemmas.Odometer
import Mathlib.Data.List.Sort
/-
Lemmas about the walkers.
-/
namespace OpenGM
open Spec
namespace Walkers

theorem steps_chain {α : Type} (next : α → Option α) : ∀ (l : List α) (t : α),
    List.IsChain (fun a b => next a = some b) (t :: l) → ∀ k, k < (t :: l).length → steps next k t = (t :: l)[k]?
  | _, t, _, 0, _ => by simp [steps]
  | [], t, _, k + 1, h => by simp at h
  | u :: l, t, hc, k + 1, h => by
    rw [List.isChain_cons_cons] at hc
    simp only [steps, hc.1, Option.bind_some, List.getElem?_cons_succ]
    exact steps_chain next l u hc.2 k (by simpa using h)

theorem inShape_length : ∀ {s t : List Nat}, InShape s t → t.length = s.length
  | [], [], _ => rfl
  | [], _ :: _, h => by simp [InShape] at h
  | _ :: _, [], h => by simp [InShape] at h
  | _ :: s, _ :: t, h => by simp [inShape_length h.2]

theorem setAt_append (pre t : List Nat) (x y : Nat) : setAt (pre ++ x :: t) pre.length y = some (pre ++ y :: t) := by
  simp [setAt]

/-! ### ShapeWalker -/

theorem shapeWalkerLoop_aux : ∀ (s t t' preN pre : List Nat), pre.length = preN.length → InShape s t → odoNext s t = some t' →
    shapeWalkerLoop (preN ++ s) (List.range' pre.length s.length) (pre ++ t) = some (pre ++ t')
  | [], t, t', _, _, _, _, h => by simp [odoNext] at h
  | _ :: _, [], _, _, _, _, hs, _ => by simp [InShape] at hs
  | n :: s, x :: t, t', preN, pre, hp, hs, h => by
    rw [List.length_cons, List.range'_succ]
    unfold shapeWalkerLoop
    have h1 : (pre ++ x :: t)[pre.length]? = some x := by simp
    have h2 : (preN ++ n :: s)[pre.length]? = some n := by rw [hp]; simp
    rw [h1, h2]
    simp only
    simp only [odoNext] at h
    have hx := hs.1
    by_cases hd : x + 1 < n
    · rw [if_pos hd] at h
      cases h
      rw [if_pos (by omega), setAt_append]
    · rw [if_neg hd] at h
      rw [if_neg (by omega)]
      obtain ⟨u, hu, rfl⟩ := Option.map_eq_some_iff.mp h
      have hne : s ≠ [] := by rintro rfl; simp [odoNext] at hu
      have : 0 < s.length := List.length_pos_iff.mpr hne
      rw [if_pos (by simp; omega), setAt_append]
      simp only [Option.bind_some]
      have := shapeWalkerLoop_aux s t u (preN ++ [n]) (pre ++ [0]) (by simp [hp]) hs.2 hu
      simpa using this

theorem shapeWalkerNext_spec {s t t' : List Nat} (hs : InShape s t) (h : odoNext s t = some t') :
    shapeWalkerNext s t = some t' := by
  have := shapeWalkerLoop_aux s t t' [] [] rfl hs h
  rw [shapeWalkerNext, List.range_eq_range']
  simpa using this

/-- A `next` function that follows the odometer enumerates all tuples. -/
theorem steps_allTuples {α : Type} (next : α → Option α) (shape : List Nat) (hp : Positive shape) (e : List Nat → α)
    (hnext : ∀ t t', InShape shape t → odoNext shape t = some t' → next (e t) = some (e t')) (k : Nat) (hk : k < shape.prod) :
    steps next k (e (List.replicate shape.length 0)) = (allTuples shape)[k]?.map e := by
  obtain ⟨rest, hr⟩ := zeros_head shape hp
  obtain ⟨h1, _⟩ := odo_chain shape hp
  have hlen := length_allTuples shape
  have hmem : ∀ t ∈ allTuples shape, InShape shape t := fun t ht => (mem_allTuples shape t).mp ht
  rw [hr] at h1 hlen hmem ⊢
  have := steps_chain next (rest.map e) (e (List.replicate shape.length 0))
    (by
      rw [← List.map_cons]
      rw [List.isChain_map]
      refine List.IsChain.imp_of_mem_imp ?_ h1
      intro a b ha _ hab
      exact hnext a b (hmem a ha) hab) k (by simp at hlen ⊢; omega)
  rw [this, ← List.map_cons, List.getElem?_map]

/-! ### ShapeWalkerSwitchedOrder -/

theorem switchedLoop_aux : ∀ (s t u post postN : List Nat), InShape s t → odoNext s t = some u →
    switchedLoop (s.reverse ++ postN) (s.length - 1) (t.reverse ++ post) = some (u.reverse ++ post)
  | [], _, _, _, _, _, h => by simp [odoNext] at h
  | _ :: _, [], _, _, _, hs, _ => by simp [InShape] at hs
  | n :: s, x :: t, u, post, postN, hs, h => by
    have hlen := inShape_length hs.2
    have hx := hs.1
    have h1 : (List.reverse (x :: t) ++ post)[s.length]? = some x := by
      rw [List.reverse_cons, List.append_assoc, List.getElem?_append_right (by simp [hlen])]
      simp [hlen]
    have h2 : (List.reverse (n :: s) ++ postN)[s.length]? = some n := by
      rw [List.reverse_cons, List.append_assoc, List.getElem?_append_right (by simp)]
      simp
    have h3 : ∀ y, setAt (List.reverse (x :: t) ++ post) s.length y = some (List.reverse (y :: t) ++ post) := by
      intro y
      have := setAt_append t.reverse post x y
      rw [List.length_reverse, hlen] at this
      simpa using this
    simp only [odoNext] at h
    have hsl : (n :: s).length - 1 = s.length := rfl
    rw [hsl]
    cases hk : s.length with
    | zero =>
      have hs0 : s = [] := List.length_eq_zero_iff.mp hk
      rw [hk] at h1 h2 h3
      unfold switchedLoop
      rw [h1, h2]
      simp only
      subst hs0
      by_cases hd : x + 1 < n
      · rw [if_pos hd] at h
        cases h
        exact h3 (x + 1)
      · rw [if_neg hd] at h
        simp [odoNext] at h
    | succ k =>
      rw [hk] at h1 h2 h3
      unfold switchedLoop
      rw [h1, h2]
      simp only
      by_cases hd : x + 1 < n
      · rw [if_pos hd] at h
        cases h
        rw [if_pos (by omega), h3]
      · rw [if_neg hd] at h
        rw [if_neg (by omega), h3]
        obtain ⟨w, hw, rfl⟩ := Option.map_eq_some_iff.mp h
        have := switchedLoop_aux s t w (0 :: post) (n :: postN) hs.2 hw
        rw [hk] at this
        simpa using this

theorem inShape_append : ∀ {s t s' t' : List Nat}, InShape s t → InShape s' t' → InShape (s ++ s') (t ++ t')
  | [], [], _, _, _, h => h
  | [], _ :: _, _, _, h, _ => by simp [InShape] at h
  | _ :: _, [], _, _, h, _ => by simp [InShape] at h
  | _ :: _, _ :: _, _, _, h, h' => ⟨h.1, inShape_append h.2 h'⟩

theorem inShape_reverse : ∀ {s t : List Nat}, InShape s t → InShape s.reverse t.reverse
  | [], [], _ => trivial
  | [], _ :: _, h => by simp [InShape] at h
  | _ :: _, [], h => by simp [InShape] at h
  | n :: s, x :: t, h => by
    rw [List.reverse_cons, List.reverse_cons]
    exact inShape_append (inShape_reverse h.2) ⟨h.1, trivial⟩

theorem allTuples_append (n : Nat) : ∀ s : List Nat,
    allTuples (s ++ [n]) = (List.range n).flatMap (fun d => (allTuples s).map (fun t => t ++ [d]))
  | [] => by simp [allTuples, List.flatMap_singleton']; induction List.range n <;> simp_all
  | m :: s => by
    simp only [List.cons_append, allTuples, allTuples_append n s]
    rw [List.flatMap_assoc]
    congr 1
    funext d
    rw [List.flatMap_map, List.map_flatMap]
    congr 1
    funext t
    simp

theorem allTuplesLast_eq : ∀ s : List Nat, allTuplesLast s = (allTuples s.reverse).map List.reverse
  | [] => rfl
  | n :: s => by
    rw [List.reverse_cons, allTuples_append, List.map_flatMap]
    simp only [allTuplesLast, allTuplesLast_eq s]
    congr 1
    funext d
    simp [List.map_map, Function.comp_def]

end Walkers
end OpenGM
