import Verif.Model.Marray
import Verif.Lemmas.Walkers
/-
Lemmas about strides, indices and offsets.
-/
namespace OpenGM
open Spec Walkers
namespace Marray
namespace Geometry

/-- Mixed-radix number of a tuple, first coordinate fastest. -/
def idx : List Nat → List Nat → Nat
  | n :: s, x :: c => x + n * idx s c
  | _, _ => 0

/-- Inner product. -/
def dot : List Nat → List Nat → Nat
  | s :: ss, c :: cs => c * s + dot ss cs
  | _, _ => 0

theorem dotLoop_eq : ∀ (ss c : List Nat) (out : Nat), c.length = ss.length → dotLoop ss c out = some (out + dot ss c)
  | [], _, out, _ => by simp [dotLoop, dot]
  | _ :: _, [], _, h => by simp at h
  | s :: ss, x :: c, out, h => by
    rw [dotLoop, dotLoop_eq ss c _ (by simpa using h), dot, Nat.add_assoc]

theorem stridesLoop_length : ∀ (t : Nat) (s : List Nat), (stridesLoop t s).length = s.length
  | _, [] => rfl
  | t, n :: s => by simp [stridesLoop, stridesLoop_length (t * n) s]

theorem dot_stridesLoop : ∀ (s c : List Nat) (t : Nat), c.length = s.length → dot (stridesLoop t s) c = t * idx s c
  | [], _, _, _ => by simp [stridesLoop, dot, idx]
  | _ :: _, [], _, h => by simp at h
  | n :: s, x :: c, t, h => by
    rw [stridesLoop, dot, dot_stridesLoop s c (t * n) (by simpa using h), idx]
    ring

theorem dot_append : ∀ (a b c d : List Nat), a.length = c.length → dot (a ++ b) (c ++ d) = dot a c + dot b d
  | [], _, [], _, _ => by simp [dot]
  | [], _, _ :: _, _, h => by simp at h
  | _ :: _, _, [], _, h => by simp at h
  | x :: a, b, y :: c, d, h => by
    simp only [List.cons_append, dot]
    rw [dot_append a b c d (by simpa using h)]
    ring

theorem dot_reverse : ∀ (a c : List Nat), a.length = c.length → dot a.reverse c.reverse = dot a c
  | [], [], _ => rfl
  | [], _ :: _, h => by simp at h
  | _ :: _, [], h => by simp at h
  | x :: a, y :: c, h => by
    simp only [List.reverse_cons]
    rw [dot_append _ _ _ _ (by simpa using h), dot_reverse a c (by simpa using h)]
    simp [dot, Nat.add_comm]

theorem getElem?_flatMap_block {α β : Type} (n : Nat) (hn : 0 < n) (f : α → Nat → β) : ∀ (l : List α) (k : Nat),
    (l.flatMap (fun t => (List.range n).map (fun d => f t d)))[k]? = (l[k / n]?).map (fun t => f t (k % n))
  | [], k => by simp
  | t :: l, k => by
    rw [List.flatMap_cons]
    by_cases hk : k < n
    · rw [List.getElem?_append_left (by simpa using hk), List.getElem?_map, List.getElem?_range hk, Nat.div_eq_of_lt hk,
        Nat.mod_eq_of_lt hk]
      simp
    · rw [List.getElem?_append_right (by simpa using hk), List.length_map, List.length_range,
        getElem?_flatMap_block n hn f l (k - n)]
      have h1 : k / n = (k - n) / n + 1 := by
        rw [Nat.div_eq, if_pos ⟨hn, by omega⟩]
      have h2 : k % n = (k - n) % n := by
        rw [Nat.mod_eq_sub_mod (by omega)]
      rw [h1, h2]
      simp

theorem allTuples_getElem? (n : Nat) (hn : 0 < n) (s : List Nat) (k : Nat) :
    (allTuples (n :: s))[k]? = ((allTuples s)[k / n]?).map (fun t => (k % n) :: t) := by
  rw [allTuples]
  exact getElem?_flatMap_block n hn (fun t d => d :: t) (allTuples s) k

theorem allTuples_idx : ∀ (s c : List Nat), InShape s c → (allTuples s)[idx s c]? = some c
  | [], [], _ => by simp [allTuples, idx]
  | [], _ :: _, h => by simp [InShape] at h
  | _ :: _, [], h => by simp [InShape] at h
  | n :: s, x :: c, h => by
    have hx : x < n := h.1
    have hn : 0 < n := by omega
    rw [allTuples_getElem? n hn, idx, Nat.add_mul_div_left _ _ hn, Nat.div_eq_of_lt hx, Nat.zero_add,
      Nat.add_mul_mod_self_left, Nat.mod_eq_of_lt hx, allTuples_idx s c h.2]
    rfl

/-- Position in `allTuples` and mixed-radix number are the same. -/
theorem idx_of_getElem? {s c : List Nat} {i : Nat} (h : (allTuples s)[i]? = some c) : InShape s c ∧ i = idx s c := by
  have hin : InShape s c := (mem_allTuples s c).mp (List.mem_of_getElem? h)
  refine ⟨hin, ?_⟩
  have h2 := allTuples_idx s c hin
  have hnd := nodup_allTuples s
  have hi : i < (allTuples s).length := by
    by_contra hc
    rw [List.getElem?_eq_none (by omega)] at h
    simp at h
  rw [← h2] at h
  exact (List.getElem?_inj hi hnd).mp h

theorem idx_lt {s c : List Nat} (h : InShape s c) : idx s c < s.prod := by
  have h1 := allTuples_idx s c h
  rw [← length_allTuples]
  by_contra hc
  rw [List.getElem?_eq_none (by omega)] at h1
  simp at h1

theorem divLoop_strides : ∀ (s c : List Nat) (t : Nat) (b : List Nat) (r : Nat), InShape s c → r < t →
    divLoop ((stridesLoop t s).reverse ++ b) (t * idx s c + r) = (divLoop b r).map (fun e => c.reverse ++ e)
  | [], [], t, b, r, _, _ => by simp [stridesLoop, idx]
  | [], _ :: _, _, _, _, h, _ => by simp [InShape] at h
  | _ :: _, [], _, _, _, h, _ => by simp [InShape] at h
  | n :: s, x :: c, t, b, r, h, hr => by
    have hx : x < n := h.1
    have e1 : t * idx (n :: s) (x :: c) + r = (t * n) * idx s c + (t * x + r) := by rw [idx]; ring
    have hlt : t * x + r < t * n := by
      have h2 : t * x + t ≤ t * n := by
        have : t * (x + 1) ≤ t * n := Nat.mul_le_mul_left t hx
        rwa [Nat.mul_add, Nat.mul_one] at this
      omega
    have ih := divLoop_strides s c (t * n) (t :: b) (t * x + r) h.2 hlt
    rw [e1]
    simp only [stridesLoop, List.reverse_cons, List.append_assoc, List.singleton_append]
    rw [ih]
    have ht : t ≠ 0 := by omega
    simp only [divLoop, if_neg ht]
    rw [Nat.mul_add_mod, Nat.mod_eq_of_lt hr, Nat.mul_add_div (by omega), Nat.div_eq_of_lt hr]
    rw [Option.map_map]
    congr 1

theorem offsetLoop_strides : ∀ (s c : List Nat) (t : Nat) (st b b' : List Nat) (r out : Nat), InShape s c → r < t →
    st.length = s.length →
    offsetLoop ((stridesLoop t s).reverse ++ b) (st.reverse ++ b') (t * idx s c + r) out = offsetLoop b b' r (out + dot st c)
  | [], [], t, st, b, b', r, out, _, _, hst => by
    have : st = [] := List.length_eq_zero_iff.mp hst
    subst this
    simp [stridesLoop, idx, dot]
  | [], _ :: _, _, _, _, _, _, _, h, _, _ => by simp [InShape] at h
  | _ :: _, [], _, _, _, _, _, _, h, _, _ => by simp [InShape] at h
  | _ :: _, _ :: _, _, [], _, _, _, _, _, _, hst => by simp at hst
  | n :: s, x :: c, t, u :: st, b, b', r, out, h, hr, hst => by
    have hx : x < n := h.1
    have e1 : t * idx (n :: s) (x :: c) + r = (t * n) * idx s c + (t * x + r) := by rw [idx]; ring
    have hlt : t * x + r < t * n := by
      have h2 : t * x + t ≤ t * n := by
        have : t * (x + 1) ≤ t * n := Nat.mul_le_mul_left t hx
        rwa [Nat.mul_add, Nat.mul_one] at this
      omega
    have ih := offsetLoop_strides s c (t * n) st (t :: b) (u :: b') (t * x + r) out h.2 hlt (by simpa using hst)
    rw [e1]
    simp only [stridesLoop, List.reverse_cons, List.append_assoc, List.singleton_append]
    rw [ih]
    have ht : t ≠ 0 := by omega
    simp only [offsetLoop, if_neg ht]
    rw [Nat.mul_add_mod, Nat.mod_eq_of_lt hr, Nat.mul_add_div (by omega), Nat.div_eq_of_lt hr, dot]
    congr 1
    ring

end Geometry
end Marray
end OpenGM
