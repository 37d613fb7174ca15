import Verif.Prelude
import Mathlib.Data.List.Chain
import Mathlib.Data.List.Nodup
import Mathlib.Algebra.BigOperators.Group.List.Basic
import Verif.Spec.Tuples
/-
The odometer that all enumeration loops of the library implement, and its relation to `allTuples`.
-/
namespace OpenGM
open Spec

/-- The successor of a tuple, first coordinate fastest; `none` after the last one. -/
def odoNext : List Nat → List Nat → Option (List Nat)
  | n :: shape, d :: t =>
    if d + 1 < n then some ((d + 1) :: t)
    else (odoNext shape t).map (fun t' => 0 :: t')
  | _, _ => none

theorem mem_allTuples : ∀ (shape c : List Nat), c ∈ allTuples shape ↔ InShape shape c
  | [], c => by cases c <;> simp [allTuples, InShape]
  | n :: shape, c => by
    simp only [allTuples, List.mem_flatMap, List.mem_map, List.mem_range]
    cases c with
    | nil => simp [InShape]
    | cons d t =>
      simp only [List.cons.injEq, InShape]
      rw [← mem_allTuples shape t]
      constructor
      · rintro ⟨t', h, d', hd, rfl, rfl⟩; exact ⟨hd, h⟩
      · rintro ⟨h1, h2⟩; exact ⟨t, h2, d, h1, rfl, rfl⟩

theorem nodup_allTuples : ∀ shape : List Nat, (allTuples shape).Nodup
  | [] => by simp [allTuples]
  | n :: shape => by
    simp only [allTuples]
    rw [List.nodup_flatMap]
    refine ⟨?_, ?_⟩
    · intro t _
      apply List.Nodup.map _ List.nodup_range
      intro a b h; simpa using h
    · refine (nodup_allTuples shape).imp ?_
      intro a b hab
      rw [Function.onFun, List.disjoint_left]
      intro x hx hy
      simp only [List.mem_map] at hx hy
      obtain ⟨_, _, rfl⟩ := hx
      obtain ⟨_, _, h⟩ := hy
      simp only [List.cons.injEq] at h
      exact hab h.2.symm

theorem length_allTuples : ∀ shape : List Nat, (allTuples shape).length = shape.prod
  | [] => by simp [allTuples]
  | n :: shape => by
    simp only [allTuples, List.length_flatMap, List.length_map, List.length_range, List.prod_cons]
    rw [← length_allTuples shape]
    generalize allTuples shape = l
    induction l with
    | nil => simp
    | cons a l ih => rw [List.map_cons, List.sum_cons, ih, List.length_cons]; ring

/-- All extents are positive. -/
def Positive (shape : List Nat) : Prop := ∀ n ∈ shape, 0 < n

theorem zeros_head : ∀ (shape : List Nat), Positive shape →
    ∃ rest, allTuples shape = List.replicate shape.length 0 :: rest
  | [], _ => ⟨[], rfl⟩
  | n :: shape, h => by
    obtain ⟨rest, hr⟩ := zeros_head shape (fun m hm => h m (List.mem_cons_of_mem _ hm))
    have hn : 0 < n := h n (by simp)
    obtain ⟨m, rfl⟩ : ∃ m, n = m + 1 := ⟨n - 1, by omega⟩
    simp only [allTuples, hr, List.flatMap_cons, List.range_succ_eq_map, List.map_cons, List.length_cons, List.replicate_succ,
      List.cons_append]
    exact ⟨_, rfl⟩

/-- Successor relation inside a block of tuples with common tail `t`. -/
theorem block_chain (n : Nat) (shape t : List Nat) : ∀ (k d : Nat), d + k = n →
    List.IsChain (fun a b => odoNext (n :: shape) a = some b) ((List.range' d k).map (fun d => d :: t))
  | 0, _, _ => by simp
  | 1, d, _ => by simp
  | k + 2, d, h => by
    have ih := block_chain n shape t (k + 1) (d + 1) (by omega)
    rw [List.range'_succ, List.map_cons]
    rw [List.range'_succ, List.map_cons] at ih ⊢
    rw [List.isChain_cons_cons]
    refine ⟨?_, ih⟩
    simp only [odoNext]
    rw [if_pos (by omega)]

/-- The odometer walks through `allTuples`. -/
theorem odo_chain : ∀ shape : List Nat, Positive shape →
    List.IsChain (fun a b => odoNext shape a = some b) (allTuples shape) ∧
    ∀ t, (allTuples shape).getLast? = some t → odoNext shape t = none
  | [], _ => by simp [allTuples, odoNext]
  | n :: shape, h => by
    obtain ⟨ih1, ih2⟩ := odo_chain shape (fun m hm => h m (List.mem_cons_of_mem _ hm))
    have hn : 0 < n := h n (by simp)
    simp only [allTuples]
    generalize allTuples shape = l at ih1 ih2
    have hblock : ∀ t : List Nat, ∃ pre, (List.range n).map (fun d => d :: t) = pre ++ [(n - 1) :: t] ∧
        ((List.range n).map (fun d => d :: t)).head? = some (0 :: t) := by
      intro t
      obtain ⟨m, rfl⟩ : ∃ m, n = m + 1 := ⟨n - 1, by omega⟩
      refine ⟨(List.range m).map (fun d => d :: t), by simp [List.range_succ], by simp [List.range_succ_eq_map]⟩
    have hstep : ∀ t : List Nat, odoNext (n :: shape) ((n - 1) :: t) = (odoNext shape t).map (fun t' => 0 :: t') := by
      intro t
      simp only [odoNext]
      rw [if_neg (by omega)]
    constructor
    · induction l with
      | nil => simp
      | cons t l ihl =>
        rw [List.flatMap_cons]
        have hl2 : ∀ t', l.getLast? = some t' → odoNext shape t' = none := by
          intro t' ht'
          apply ih2
          cases l with
          | nil => simp at ht'
          | cons a l => simpa using ht'
        have hch := (List.isChain_cons.mp ih1)
        have ihl' := ihl hch.2 hl2
        obtain ⟨pre, hpre, hhead⟩ := hblock t
        rw [List.isChain_append]
        refine ⟨?_, ihl', ?_⟩
        · have := block_chain n shape t n 0 (by omega)
          rwa [← List.range_eq_range'] at this
        · intro x hx y hy
          rw [hpre] at hx
          simp only [List.getLast?_append, List.getLast?_singleton, Option.some_or, Option.mem_def, Option.some.injEq] at hx
          subst hx
          rw [hstep]
          cases l with
          | nil => simp at hy
          | cons t' l =>
            rw [List.flatMap_cons] at hy
            obtain ⟨_, _, hhead'⟩ := hblock t'
            rw [List.head?_append, hhead'] at hy
            simp only [Option.some_or, Option.mem_def, Option.some.injEq] at hy
            subst hy
            have := hch.1 t' (by simp)
            rw [this]; rfl
    · intro t ht
      rcases l.eq_nil_or_concat with rfl | ⟨l', t', rfl⟩
      · simp at ht
      · obtain ⟨pre, hpre, _⟩ := hblock t'
        rw [List.concat_eq_append, List.flatMap_append] at ht
        simp only [List.flatMap_cons, List.flatMap_nil, List.append_nil, hpre] at ht
        rw [← List.append_assoc] at ht
        simp only [List.getLast?_append, List.getLast?_singleton, Option.some_or, Option.some.injEq] at ht
        subst ht
        rw [hstep, ih2 t' (by simp)]
        rfl

/-- A loop that processes the current tuple, stops at overflow and otherwise continues with the successor. -/
def odoLoop {σ : Type} (shape : List Nat) (process : σ → List Nat → σ) : Nat → List Nat → σ → Option σ
  | 0, _, _ => none
  | fuel + 1, t, s =>
    match odoNext shape t with
    | none => some (process s t)
    | some t' => odoLoop shape process fuel t' (process s t)

theorem odoLoop_chain {σ : Type} (shape : List Nat) (process : σ → List Nat → σ) :
    ∀ (l : List (List Nat)) (t : List Nat) (s : σ) (fuel : Nat),
      List.IsChain (fun a b => odoNext shape a = some b) (t :: l) →
      (∀ u, (t :: l).getLast? = some u → odoNext shape u = none) → l.length < fuel →
      odoLoop shape process fuel t s = some ((t :: l).foldl process s)
  | [], t, s, fuel, _, hl, hf => by
    obtain ⟨k, rfl⟩ : ∃ k, fuel = k + 1 := ⟨fuel - 1, by simp at hf; omega⟩
    simp [odoLoop, hl t (by simp)]
  | u :: l, t, s, fuel, hc, hl, hf => by
    obtain ⟨k, rfl⟩ : ∃ k, fuel = k + 1 := ⟨fuel - 1, by simp at hf; omega⟩
    rw [List.isChain_cons_cons] at hc
    unfold odoLoop
    rw [hc.1]
    simp only
    rw [odoLoop_chain shape process l u (process s t) k hc.2 (by intro w hw; exact hl w (by simpa using hw))
      (by simp at hf; omega)]
    rfl

/-- From the zero tuple, the loop processes every tuple once, in order. -/
theorem odoLoop_spec {σ : Type} (shape : List Nat) (process : σ → List Nat → σ) (hp : Positive shape) (s : σ) (fuel : Nat)
    (hf : shape.prod ≤ fuel) :
    odoLoop shape process fuel (List.replicate shape.length 0) s = some ((allTuples shape).foldl process s) := by
  obtain ⟨rest, hr⟩ := zeros_head shape hp
  obtain ⟨h1, h2⟩ := odo_chain shape hp
  have hlen := length_allTuples shape
  rw [hr] at h1 h2 hlen ⊢
  exact odoLoop_chain shape process rest _ s fuel h1 h2 (by simp at hlen; omega)

end OpenGM
