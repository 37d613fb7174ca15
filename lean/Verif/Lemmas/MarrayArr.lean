import Verif.Lemmas.MarrayResize
/-
Arrays that a program can make: every successful operation leaves a dense array with the right number of values.
-/
namespace OpenGM
open Spec Walkers
namespace Marray
open Geometry

theorem memcpyLoop_length {V : Type} {src : List V} {q p : Nat} {mem : List V} : ∀ {n : Nat} {mem' : List V},
    memcpyLoop src q p n mem = some mem' → mem'.length = mem.length
  | 0, mem', h => by simp only [memcpyLoop, Option.some.injEq] at h; rw [h]
  | n + 1, mem', h => by
    rw [memcpyLoop] at h
    cases h1 : memcpyLoop src q p n mem with
    | none => rw [h1] at h; simp at h
    | some m =>
      rw [h1, Option.bind_some] at h
      have ih := memcpyLoop_length h1
      cases h2 : src[q + n]? with
      | none => rw [h2] at h; simp at h
      | some x =>
        rw [h2] at h
        simp only at h
        obtain ⟨_, rfl⟩ := setAt_eq_some.mp h
        rw [List.length_set, ih]

theorem applyWrites_length {V : Type} {src : List V} : ∀ {ws : List (Nat × Nat)} {mem mem' : List V},
    applyWrites src ws mem = some mem' → mem'.length = mem.length
  | [], mem, mem', h => by simp only [applyWrites, Option.some.injEq] at h; rw [h]
  | (d, s) :: ws, mem, mem', h => by
    rw [applyWrites] at h
    cases h1 : src[s]? with
    | none => rw [h1] at h; simp at h
    | some x =>
      rw [h1] at h
      simp only at h
      cases h2 : setAt mem d x with
      | none => rw [h2] at h; simp at h
      | some m =>
        rw [h2, Option.bind_some] at h
        have := applyWrites_length h
        obtain ⟨_, rfl⟩ := setAt_eq_some.mp h2
        rw [this, List.length_set]

theorem iterCopy_length {V : Type} {src : List V} {from_ to_ : View} : ∀ {n : Nat} {i j : Iter} {mem mem' : List V},
    iterCopy src from_ to_ n i j mem = some mem' → mem'.length = mem.length
  | 0, _, _, mem, mem', h => by simp only [iterCopy, Option.some.injEq] at h; rw [h]
  | n + 1, i, j, mem, mem', h => by
    rw [iterCopy] at h
    cases h1 : i.deref src from_.base with
    | none => rw [h1] at h; simp at h
    | some x =>
      rw [h1] at h
      simp only at h
      cases h2 : setAt mem (to_.base + j.pointer) x with
      | none => rw [h2] at h; simp at h
      | some m =>
        rw [h2] at h
        cases h3 : i.next from_.geometry with
        | none => rw [h3] at h; simp at h
        | some i' =>
          cases h4 : j.next to_.geometry with
          | none => rw [h3, h4] at h; simp at h
          | some j' =>
            rw [h3, h4] at h
            simp only at h
            have := iterCopy_length h
            obtain ⟨_, rfl⟩ := setAt_eq_some.mp h2
            rw [this, List.length_set]

theorem copyView_length {V : Type} {src mem mem' : List V} {from_ to_ : View} (h : copyView src from_ mem to_ = some mem') :
    mem'.length = mem.length := by
  unfold copyView at h
  split at h
  · exact memcpyLoop_length h
  · split at h
    · rw [copyNest_eq] at h
      exact applyWrites_length h
    · split at h
      · exact iterCopy_length h
      · simp at h

namespace Arr

theorem copyOverlap_length {V : Type} {a : Arr V} {old newData d : List V} {newShape : List Nat} {newSize : Nat}
    (h : a.copyOverlap old newShape newSize newData = some d) : d.length = newData.length := by
  unfold copyOverlap at h
  split at h
  · split at h
    · obtain ⟨_, rfl⟩ := setAt_eq_some.mp h
      rw [List.length_set]
    · simp at h
  · simp only at h
    split at h
    · exact copyView_length h
    · simp at h

theorem resize_ok {V : Type} {zero value : V} {a a' : Arr V} {newShape : List Nat} (ha : a = empty ∨ ∃ shape o, a.Ok shape o)
    (h : a.resize zero newShape value = some a') : ∃ o, a'.Ok newShape o := by
  unfold resize at h
  split at h
  · rename_i hn
    subst hn
    split at h
    · cases h1 : a.getIndex 0 with
      | none => rw [h1] at h; simp at h
      | some x =>
        rw [h1] at h
        simp only [Option.map_some, Option.some.injEq] at h
        subst h
        exact ⟨defaultOrder, rfl, _, rfl, rfl⟩
    · simp only [Option.some.injEq] at h
      subst h
      exact ⟨defaultOrder, rfl, _, rfl, rfl⟩
  · unfold resizeHelper at h
    simp only at h
    split at h
    · simp only [Option.some.injEq] at h
      subst h
      exact ⟨_, rfl, _, rfl, by rw [List.length_replicate, foldl_mul_prod]⟩
    · simp only [Option.map_eq_some_iff] at h
      obtain ⟨d, h1, rfl⟩ := h
      exact ⟨_, rfl, d, rfl, by rw [copyOverlap_length h1, List.length_replicate, foldl_mul_prod]⟩

theorem set_ok {V : Type} {a a' : Arr V} {c : List Nat} {x : V} {shape : List Nat} {o : Order} (ha : a.Ok shape o)
    (h : a.set c x = some a') : a'.Ok shape o := by
  obtain ⟨hg, mem, hm, hl⟩ := ha
  unfold set at h
  rw [hm] at h
  cases h1 : a.geometry.coordinatesToOffset c with
  | none => rw [h1] at h; simp at h
  | some k =>
    rw [h1] at h
    simp only [Option.map_eq_some_iff] at h
    obtain ⟨m, h2, rfl⟩ := h
    obtain ⟨_, rfl⟩ := setAt_eq_some.mp h2
    exact ⟨hg, _, rfl, by rw [List.length_set, hl]⟩

end Arr
end Marray
end OpenGM
