import Verif.Model.FunctionStorage
import Verif.Lemmas.Functions
import Verif.Lemmas.FactorFix
/-
Lemmas about stored functions: sequences, arrays, sparse maps.
-/
namespace OpenGM
namespace Functions
open Spec Walkers FactorOps Marray Geometry

variable {V : Type}

theorem readShape_append : ∀ (shape rest : List Nat), readShape shape.length (shape ++ rest) = some shape
  | [], _ => rfl
  | n :: shape, rest => by simp [readShape, readShape_append shape rest]

theorem readShape_append' {n : Nat} (shape rest : List Nat) (h : n = shape.length) : readShape n (shape ++ rest) = some shape := by
  subst h; exact readShape_append shape rest

/-! ### explicit functions -/

namespace Explicit

theorem readFrom_eq {a : Arr V} {shape : List Nat} {o : Order} {mem : List V} (hg : a.geometry = dense shape o o) (hm : a.data = some mem) :
    ∀ (n i : Nat), i + n ≤ mem.length → readFrom a n i = some ((mem.drop i).take n)
  | 0, _, _ => by simp [readFrom]
  | n + 1, i, h => by
    rw [readFrom, Arr.Ok.getIndex_eq hg hm, List.getElem?_eq_getElem (by omega)]
    simp only
    rw [readFrom_eq hg hm n (i + 1) (by omega)]
    simp only [Option.map_some]
    rw [List.drop_eq_getElem_cons (show i < mem.length by omega), List.take_succ_cons]

theorem writeFrom_eq (shape : List Nat) (o : Order) : ∀ (ws old pre rest : List V), old.length = ws.length →
    writeFrom ws.length pre.length (ws ++ rest) ⟨some (pre ++ old), dense shape o o⟩ = some ⟨some (pre ++ ws), dense shape o o⟩
  | [], old, pre, rest, h => by
    have : old = [] := List.length_eq_zero_iff.mp h
    subst this
    simp [writeFrom]
  | w :: ws, [], pre, rest, h => by simp at h
  | w :: ws, x :: old, pre, rest, h => by
    simp only [List.length_cons, List.cons_append, writeFrom]
    have hs : setIndex (⟨some (pre ++ x :: old), dense shape o o⟩ : Arr V) pre.length w = some ⟨some (pre ++ w :: old), dense shape o o⟩ := by
      unfold setIndex
      simp only [indexToOffset, if_pos (Arr.dense_simple shape o)]
      rw [setAt_of_lt _ (by simp)]
      simp
    rw [hs, Option.bind_some]
    have ih := writeFrom_eq shape o ws old (pre ++ [w]) rest (by simpa using h)
    simpa using ih

end Explicit

/-! ### sparse functions -/

namespace Sparse

theorem stridesFrom_eq : ∀ (t : Nat) (s : List Nat), stridesFrom t s = stridesLoop t s
  | _, [] => rfl
  | t, n :: s => by rw [stridesFrom, stridesLoop, stridesFrom_eq]

theorem keyLoop_eq : ∀ (ss c : List Nat) (key : Nat), c.length = ss.length → keyLoop ss c key = some (key + dot ss c)
  | [], _, key, _ => by simp [keyLoop, dot]
  | _ :: _, [], _, h => by simp at h
  | s :: ss, x :: c, key, h => by
    rw [keyLoop, keyLoop_eq ss c _ (by simpa using h), dot, Nat.add_assoc, Nat.mul_comm]

theorem coordLoop_eq : ∀ (ss : List Nat) (key : Nat), coordLoop ss key = divLoop ss key
  | [], _ => rfl
  | s :: ss, key => by
    rw [coordLoop, divLoop]
    have : key - key / s * s = key % s := by
      have := Nat.div_add_mod key s
      rw [Nat.mul_comm] at this
      omega
    rw [this, coordLoop_eq]

/-- Keys of the tuples below the shape. -/
theorem key_eq {f : Sparse V} (hs : f.strides = stridesFrom 1 f.shape) {c : List Nat} (hc : c.length = f.shape.length) :
    f.coordinateToKey c = some (idx f.shape c) := by
  unfold coordinateToKey
  rw [hs, stridesFrom_eq, keyLoop_eq _ _ _ (by rw [stridesLoop_length]; exact hc), dot_stridesLoop _ _ _ hc]
  simp

theorem idx_inj {shape c c' : List Nat} (h : InShape shape c) (h' : InShape shape c') (he : idx shape c = idx shape c') : c = c' := by
  have h1 := allTuples_idx _ _ h
  rw [he, allTuples_idx _ _ h'] at h1
  exact (Option.some.inj h1).symm

theorem keyToCoordinate_eq {f : Sparse V} (hs : f.strides = stridesFrom 1 f.shape) {c : List Nat} (hc : InShape f.shape c) :
    f.keyToCoordinate (idx f.shape c) = some c := by
  unfold keyToCoordinate
  by_cases h1 : f.shape.length ≠ 1
  · rw [if_pos h1, hs, stridesFrom_eq, coordLoop_eq]
    have := divLoop_strides f.shape c 1 [] 0 hc (by omega)
    simp only [List.append_nil, Nat.one_mul, Nat.add_zero, divLoop, Option.map_some] at this
    rw [this]
    simp
  · rw [if_neg h1]
    have h2 : f.shape.length = 1 := by omega
    have h3 := inShape_length hc
    obtain ⟨n, hn⟩ := List.length_eq_one_iff.mp h2
    rw [hn] at h3 ⊢
    obtain ⟨x, rfl⟩ := List.length_eq_one_iff.mp h3
    simp [idx]

end Sparse

/-! ### maps -/

/-- The keys increase. -/
def KeysSorted (m : List (Nat × V)) : Prop := m.Pairwise (fun a b => a.1 < b.1)

theorem mem_mapInsert {k : Nat} {x : V} {e : Nat × V} : ∀ {m : List (Nat × V)}, e ∈ mapInsert k x m → e = (k, x) ∨ e ∈ m
  | [], h => by simpa [mapInsert] using h
  | a :: m, h => by
    unfold mapInsert at h
    split at h
    · simpa using h
    · split at h
      · exact Or.inr h
      · rcases List.mem_cons.mp h with h | h
        · exact Or.inr (by simp [h])
        · rcases mem_mapInsert h with h | h
          · exact Or.inl h
          · exact Or.inr (List.mem_cons_of_mem _ h)

theorem sorted_mapInsert {k : Nat} {x : V} : ∀ {m : List (Nat × V)}, KeysSorted m → KeysSorted (mapInsert k x m)
  | [], _ => by simp [mapInsert, KeysSorted]
  | a :: m, h => by
    have h' := List.pairwise_cons.mp h
    unfold mapInsert
    split
    · next hlt =>
      refine List.pairwise_cons.mpr ⟨?_, h⟩
      intro b hb
      rcases List.mem_cons.mp hb with rfl | hb
      · exact hlt
      · have := h'.1 b hb
        simp only; omega
    · split
      · exact h
      · next h1 h2 =>
        refine List.pairwise_cons.mpr ⟨?_, sorted_mapInsert h'.2⟩
        intro b hb
        rcases mem_mapInsert hb with rfl | hb
        · simp only; omega
        · exact h'.1 b hb

theorem mapFind_none {k : Nat} : ∀ {m : List (Nat × V)}, (∀ e ∈ m, e.1 ≠ k) → mapFind k m = none
  | [], _ => rfl
  | a :: m, h => by
    rw [mapFind, if_neg (h a (by simp)), mapFind_none (fun e he => h e (List.mem_cons_of_mem _ he))]

theorem mapFind_mapInsert {k k' : Nat} {x : V} : ∀ {m : List (Nat × V)}, KeysSorted m →
    mapFind k' (mapInsert k x m) = match mapFind k' m with
      | some y => some y
      | none => if k' = k then some x else none
  | [], _ => by
    simp only [mapInsert, mapFind]
    by_cases h : k = k'
    · simp [h]
    · simp [h, Ne.symm h]
  | a :: m, h => by
    have h' := List.pairwise_cons.mp h
    unfold mapInsert
    split
    · next hlt =>
      by_cases hk : k = k'
      · subst hk
        have : mapFind k (a :: m) = none := mapFind_none (by
          intro e he
          rcases List.mem_cons.mp he with rfl | he
          · omega
          · have := h'.1 e he; omega)
        rw [this]
        simp [mapFind]
      · rw [mapFind, if_neg hk]
        cases mapFind k' (a :: m) with
        | none => simp [Ne.symm hk]
        | some y => rfl
    · split
      · next h1 h2 =>
        by_cases hk : k' = k
        · subst hk
          simp [mapFind, h2]
        · simp only [if_neg hk]
          cases mapFind k' (a :: m) <;> rfl
      · next h1 h2 =>
        rw [mapFind, mapFind]
        by_cases hk : a.1 = k'
        · simp [hk]
        · rw [if_neg hk, if_neg hk]
          exact mapFind_mapInsert h'.2

/-- Inserting a key above all others appends. -/
theorem mapInsert_last {k : Nat} {x : V} : ∀ {m : List (Nat × V)}, (∀ e ∈ m, e.1 < k) → mapInsert k x m = m ++ [(k, x)]
  | [], _ => rfl
  | a :: m, h => by
    have := h a (by simp)
    rw [mapInsert, if_neg (by omega), if_neg (by omega), mapInsert_last (fun e he => h e (List.mem_cons_of_mem _ he))]
    rfl

theorem readEntries_sorted : ∀ (m done : List (Nat × V)) (ks : List Nat) (xs : List V), KeysSorted (done ++ m) →
    Sparse.readEntries m.length (m.map (·.1) ++ ks) (m.map (·.2) ++ xs) done = some (done ++ m)
  | [], done, ks, xs, _ => by simp [Sparse.readEntries]
  | e :: m, done, ks, xs, h => by
    simp only [List.length_cons, List.map_cons, List.cons_append, Sparse.readEntries]
    rw [mapInsert_last]
    · have h2 : done ++ e :: m = (done ++ [e]) ++ m := by simp
      rw [h2] at h ⊢
      exact readEntries_sorted m (done ++ [e]) ks xs h
    · intro d hd
      exact (List.pairwise_append.mp h).2.2 d hd e (by simp)

end Functions
end OpenGM
