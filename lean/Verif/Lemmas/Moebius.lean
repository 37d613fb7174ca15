import Verif.Model.FixFusion
import Mathlib.Data.Nat.Bitwise
import Mathlib.Tactic.Ring
import Mathlib.Algebra.BigOperators.Group.List.Basic
/-
Moebius inversion over the subsets of `k` bits.
-/
namespace OpenGM.FixFusion
variable {V : Type} [CommRing V]

/-- What one assignment adds to the coefficient of a subset. -/
def contrib (k a s : Nat) (e : V) : V := if subsetOf k a s then (if parity k a s then -e else e) else 0

/-- The coefficient of a subset. -/
def moebius (k : Nat) (en : Nat → V) (s : Nat) : V := ((List.range (2 ^ k)).map (fun a => contrib k a s (en a))).sum

theorem subsetOf_iff (k a s : Nat) : subsetOf k a s = true ↔ ∀ i, i < k → a.testBit i = true → s.testBit i = true := by
  unfold subsetOf
  rw [List.all_eq_true]
  constructor
  · intro h i hi ha
    have := h i (List.mem_range.2 hi)
    rw [ha] at this
    simpa using this
  · intro h i hi
    have := h i (List.mem_range.1 hi)
    cases ha : a.testBit i
    · simp
    · rw [this ha]; simp

theorem subsetOf_succ (k a s : Nat) : subsetOf (k + 1) a s = (subsetOf k a s && !(a.testBit k && !s.testBit k)) := by
  unfold subsetOf
  rw [List.range_succ, List.all_append]
  simp

theorem parity_succ (k a s : Nat) : parity (k + 1) a s = xor (parity k a s) (xor (a.testBit k) (s.testBit k)) := by
  unfold parity
  rw [List.range_succ, List.foldl_append]
  rfl

theorem subsetOf_congr {k a a' s s' : Nat} (ha : ∀ i, i < k → a.testBit i = a'.testBit i) (hs : ∀ i, i < k → s.testBit i = s'.testBit i) : subsetOf k a s = subsetOf k a' s' := by
  induction k with
  | zero => rfl
  | succ k ih => rw [subsetOf_succ, subsetOf_succ, ih (fun i hi => ha i (by omega)) (fun i hi => hs i (by omega)), ha k (by omega), hs k (by omega)]

theorem parity_congr {k a a' s s' : Nat} (ha : ∀ i, i < k → a.testBit i = a'.testBit i) (hs : ∀ i, i < k → s.testBit i = s'.testBit i) : parity k a s = parity k a' s' := by
  induction k with
  | zero => rfl
  | succ k ih => rw [parity_succ, parity_succ, ih (fun i hi => ha i (by omega)) (fun i hi => hs i (by omega)), ha k (by omega), hs k (by omega)]

theorem testBit_high (k a i : Nat) (hi : i < k) : (2 ^ k + a).testBit i = a.testBit i := Nat.testBit_two_pow_add_gt hi a
theorem testBit_top (k a : Nat) (ha : a < 2 ^ k) : (2 ^ k + a).testBit k = true := by
  rw [Nat.testBit_two_pow_add_eq, Nat.testBit_lt_two_pow ha]; rfl

theorem contrib_low (k a s : Nat) (ha : a < 2 ^ k) (hs : s < 2 ^ k) (e : V) : contrib (k + 1) a s e = contrib k a s e := by
  unfold contrib
  rw [subsetOf_succ, parity_succ, Nat.testBit_lt_two_pow ha, Nat.testBit_lt_two_pow hs]
  simp

theorem contrib_high_low (k a s : Nat) (ha : a < 2 ^ k) (hs : s < 2 ^ k) (e : V) : contrib (k + 1) (2 ^ k + a) s e = 0 := by
  unfold contrib
  rw [subsetOf_succ, testBit_top k a ha, Nat.testBit_lt_two_pow hs]
  simp

theorem contrib_low_high (k a s : Nat) (ha : a < 2 ^ k) (hs : s < 2 ^ k) (e : V) : contrib (k + 1) a (2 ^ k + s) e = - contrib k a s e := by
  unfold contrib
  rw [subsetOf_succ, parity_succ, testBit_top k s hs, Nat.testBit_lt_two_pow ha, subsetOf_congr (a' := a) (s' := s) (fun _ _ => rfl) (fun i hi => testBit_high k s i hi),
    parity_congr (a' := a) (s' := s) (fun _ _ => rfl) (fun i hi => testBit_high k s i hi)]
  cases subsetOf k a s <;> cases parity k a s <;> simp

theorem contrib_high (k a s : Nat) (ha : a < 2 ^ k) (hs : s < 2 ^ k) (e : V) : contrib (k + 1) (2 ^ k + a) (2 ^ k + s) e = contrib k a s e := by
  unfold contrib
  rw [subsetOf_succ, parity_succ, testBit_top k s hs, testBit_top k a ha, subsetOf_congr (a' := a) (s' := s) (fun i hi => testBit_high k a i hi) (fun i hi => testBit_high k s i hi),
    parity_congr (a' := a) (s' := s) (fun i hi => testBit_high k a i hi) (fun i hi => testBit_high k s i hi)]
  cases subsetOf k a s <;> cases parity k a s <;> simp

theorem range_two_pow (k : Nat) : List.range (2 ^ (k + 1)) = List.range (2 ^ k) ++ (List.range (2 ^ k)).map (fun a => 2 ^ k + a) := by
  rw [pow_succ, mul_two, List.range_add]

theorem moebius_low (k : Nat) (en : Nat → V) (s : Nat) (hs : s < 2 ^ k) : moebius (k + 1) en s = moebius k en s := by
  unfold moebius
  rw [range_two_pow, List.map_append, List.sum_append, List.map_map]
  have h2 : ((List.range (2 ^ k)).map ((fun a => contrib (k + 1) a s (en a)) ∘ (fun a => 2 ^ k + a))) = (List.range (2 ^ k)).map (fun _ => (0 : V)) := by
    apply List.map_congr_left
    intro a ha
    exact contrib_high_low k a s (List.mem_range.1 ha) hs _
  have h1 : ((List.range (2 ^ k)).map (fun a => contrib (k + 1) a s (en a))) = (List.range (2 ^ k)).map (fun a => contrib k a s (en a)) := by
    apply List.map_congr_left
    intro a ha
    exact contrib_low k a s (List.mem_range.1 ha) hs _
  rw [h1, h2]
  simp

theorem moebius_high (k : Nat) (en : Nat → V) (s : Nat) (hs : s < 2 ^ k) : moebius (k + 1) en (2 ^ k + s) = moebius k (fun a => en (2 ^ k + a)) s - moebius k en s := by
  unfold moebius
  rw [range_two_pow, List.map_append, List.sum_append, List.map_map]
  have h2 : ((List.range (2 ^ k)).map ((fun a => contrib (k + 1) a (2 ^ k + s) (en a)) ∘ (fun a => 2 ^ k + a))) = (List.range (2 ^ k)).map (fun a => contrib k a s (en (2 ^ k + a))) := by
    apply List.map_congr_left
    intro a ha
    exact contrib_high k a s (List.mem_range.1 ha) hs _
  have h1 : ((List.range (2 ^ k)).map (fun a => contrib (k + 1) a (2 ^ k + s) (en a))) = (List.range (2 ^ k)).map (fun a => - contrib k a s (en a)) := by
    apply List.map_congr_left
    intro a ha
    exact contrib_low_high k a s (List.mem_range.1 ha) hs _
  rw [h1, h2]
  have hneg : ∀ l : List Nat, (l.map (fun a => - contrib k a s (en a))).sum = - (l.map (fun a => contrib k a s (en a))).sum := by
    intro l
    induction l with
    | nil => simp
    | cons b l ih => simp only [List.map_cons, List.sum_cons, ih]; ring
  rw [hneg]
  ring

/-- The coefficients of the subsets of `x` add up to the value at `x`. -/
theorem moebius_sum : ∀ (k : Nat) (en : Nat → V) (x : Nat), x < 2 ^ k → ((List.range (2 ^ k)).map (fun s => if subsetOf k s x then moebius k en s else 0)).sum = en x
  | 0, en, x, hx => by
    have : x = 0 := by simpa using hx
    subst this
    simp [moebius, contrib, subsetOf, parity]
  | k + 1, en, x, hx => by
    rw [range_two_pow, List.map_append, List.sum_append, List.map_map]
    by_cases hlt : x < 2 ^ k
    · have h2 : ((List.range (2 ^ k)).map ((fun s => if subsetOf (k + 1) s x then moebius (k + 1) en s else 0) ∘ (fun a => 2 ^ k + a))) = (List.range (2 ^ k)).map (fun _ => (0 : V)) := by
        apply List.map_congr_left
        intro s hs
        have hs := List.mem_range.1 hs
        simp only [Function.comp]
        rw [subsetOf_succ, testBit_top k s hs, Nat.testBit_lt_two_pow hlt]
        simp
      have h1 : ((List.range (2 ^ k)).map (fun s => if subsetOf (k + 1) s x then moebius (k + 1) en s else 0)) = (List.range (2 ^ k)).map (fun s => if subsetOf k s x then moebius k en s else 0) := by
        apply List.map_congr_left
        intro s hs
        have hs := List.mem_range.1 hs
        rw [subsetOf_succ, Nat.testBit_lt_two_pow hs, moebius_low k en s hs]
        simp
      rw [h1, h2, moebius_sum k en x hlt]
      simp
    · obtain ⟨y, rfl⟩ : ∃ y, x = 2 ^ k + y := ⟨x - 2 ^ k, by omega⟩
      have hy : y < 2 ^ k := by rw [pow_succ] at hx; omega
      have hsub : ∀ s, subsetOf k s (2 ^ k + y) = subsetOf k s y := fun s => subsetOf_congr (fun _ _ => rfl) (fun i hi => testBit_high k y i hi)
      have h2 : ((List.range (2 ^ k)).map ((fun s => if subsetOf (k + 1) s (2 ^ k + y) then moebius (k + 1) en s else 0) ∘ (fun a => 2 ^ k + a))) =
          (List.range (2 ^ k)).map (fun s => (if subsetOf k s y then moebius k (fun a => en (2 ^ k + a)) s else 0) + - (if subsetOf k s y then moebius k en s else 0)) := by
        apply List.map_congr_left
        intro s hs
        have hs := List.mem_range.1 hs
        simp only [Function.comp]
        rw [subsetOf_succ, testBit_top k s hs, testBit_top k y hy, moebius_high k en s hs, subsetOf_congr (a' := s) (s' := y) (fun i hi => testBit_high k s i hi) (fun i hi => testBit_high k y i hi)]
        cases subsetOf k s y <;> simp
        ring
      have h1 : ((List.range (2 ^ k)).map (fun s => if subsetOf (k + 1) s (2 ^ k + y) then moebius (k + 1) en s else 0)) = (List.range (2 ^ k)).map (fun s => if subsetOf k s y then moebius k en s else 0) := by
        apply List.map_congr_left
        intro s hs
        have hs := List.mem_range.1 hs
        rw [subsetOf_succ, Nat.testBit_lt_two_pow hs, moebius_low k en s hs, hsub]
        simp
      have hneg : ∀ l : List Nat, (l.map (fun s => - (if subsetOf k s y then moebius k en s else 0))).sum = - (l.map (fun s => if subsetOf k s y then moebius k en s else 0)).sum := by
        intro l
        induction l with
        | nil => simp
        | cons b l ih => rw [List.map_cons, List.sum_cons, ih, List.map_cons, List.sum_cons]; ring
      have hmain := moebius_sum k (fun a => en (2 ^ k + a)) y hy
      rw [h1, h2, List.sum_map_add, hneg, hmain]
      ring

theorem moebius_zero (k : Nat) (en : Nat → V) : moebius k en 0 = en 0 := by
  induction k generalizing en with
  | zero => simp [moebius, contrib, subsetOf, parity]
  | succ k ih => rw [moebius_low k en 0 (Nat.two_pow_pos k), ih]

/-- Without the empty subset: the difference of the values at `x` and 0. -/
theorem moebius_sum_pos (k : Nat) (en : Nat → V) (x : Nat) (hx : x < 2 ^ k) :
    ((List.range' 1 (2 ^ k - 1)).map (fun s => if subsetOf k s x then moebius k en s else 0)).sum = en x - en 0 := by
  have h := moebius_sum k en x hx
  have hr : List.range (2 ^ k) = 0 :: List.range' 1 (2 ^ k - 1) := by
    have hp := Nat.two_pow_pos k
    rw [List.range_eq_range']
    obtain ⟨m, hm⟩ : ∃ m, 2 ^ k = m + 1 := ⟨2 ^ k - 1, by omega⟩
    rw [hm, List.range'_succ]
    simp
  rw [hr, List.map_cons, List.sum_cons, if_pos ((subsetOf_iff k 0 x).2 (fun i _ hb => by simp at hb)), moebius_zero] at h
  rw [← h]; ring

end OpenGM.FixFusion
