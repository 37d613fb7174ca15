import Verif.Model.Utilities
import Verif.Spec.PriorityQueue
import Mathlib.Data.List.Basic
import Mathlib.Data.List.Sort
import Mathlib.Data.Nat.ModEq
import Mathlib.Tactic.Linarith
import Mathlib.Tactic.Ring
/-
C45 (sorting.hxx), C47 (unsigned_integer_pow.hxx), C48 (tribool.hxx).
-/
namespace OpenGM.Util
open Spec

/-! ### C45 -/
section
variable {α β : Type} [LinearOrder α]

theorem isSortedLoop_iff : ∀ (l : List α) (tmp : α),
    isSortedLoop (fun a b => decide (a < b)) tmp l = true ↔ (tmp :: l).Pairwise (· ≤ ·) := by
  intro l
  induction l with
  | nil => intro tmp; simp [isSortedLoop]
  | cons x xs ih =>
    intro tmp
    unfold isSortedLoop
    by_cases h : x < tmp
    · simp only [h, decide_true, if_true, Bool.false_eq_true, false_iff]
      intro hp
      rw [List.pairwise_cons] at hp
      exact absurd (hp.1 x (by simp)) (not_le.mpr h)
    · simp only [h, decide_false, Bool.false_eq_true, if_false]
      rw [ih x]
      constructor
      · intro hp
        rw [List.pairwise_cons]
        refine ⟨?_, hp⟩
        intro y hy
        rcases List.mem_cons.mp hy with rfl | hy
        · exact not_lt.mp h
        · exact le_trans (not_lt.mp h) ((List.pairwise_cons.mp hp).1 y hy)
      · intro hp
        exact (List.pairwise_cons.mp hp).2

/-- C45 (isSorted): `isSorted` returns true iff the sequence is non-decreasing. -/
theorem C45_isSorted (l : List α) : isSorted (fun a b => decide (a < b)) l = true ↔ l.Pairwise (· ≤ ·) := by
  unfold isSorted
  split
  · next x y xs =>
    rw [isSortedLoop_iff]
    constructor
    · intro h; exact (List.pairwise_cons.mp h).2
    · intro h
      rw [List.pairwise_cons]
      refine ⟨?_, h⟩
      intro z hz
      rcases List.mem_cons.mp hz with rfl | hz
      · exact le_refl _
      · exact (List.pairwise_cons.mp h).1 z hz
  · next h =>
    match l, h with
    | [], _ => simp
    | [x], _ => simp
    | x :: y :: xs, h => exact absurd rfl (h x y xs)

theorem findLoop_spec (toFind : α) (position : Nat) : ∀ (l : List α) (p : Nat), l.Pairwise (· ≤ ·) →
    (toFind ∉ l ∧ findLoop (fun a b => decide (a < b)) (fun a b => decide (a = b)) toFind position p l = (false, position)) ∨
    ∃ k, findLoop (fun a b => decide (a < b)) (fun a b => decide (a = b)) toFind position p l = (true, p + k) ∧
      l[k]? = some toFind ∧ ∀ j < k, l[j]? ≠ some toFind := by
  intro l
  induction l with
  | nil => intro p _; left; simp [findLoop]
  | cons x xs ih =>
    intro p hp
    have hp' := List.pairwise_cons.mp hp
    unfold findLoop
    by_cases h1 : toFind < x
    · left
      simp only [h1, decide_true, if_true, and_true]
      intro hm
      rcases List.mem_cons.mp hm with rfl | hm
      · exact lt_irrefl _ h1
      · exact absurd (hp'.1 _ hm) (not_le.mpr h1)
    · simp only [h1, decide_false, Bool.false_eq_true, if_false]
      by_cases h2 : toFind = x
      · right
        refine ⟨0, by simp [h2], by simp [h2], by simp⟩
      · simp only [h2, decide_false, Bool.false_eq_true, if_false]
        rcases ih (p + 1) hp'.2 with ⟨a1, a2⟩ | ⟨k, a1, a2, a3⟩
        · left; exact ⟨by simp [h2, a1], a2⟩
        · right
          refine ⟨k + 1, by rw [a1]; congr 1; omega, by simpa using a2, ?_⟩
          intro j hj
          cases j with
          | zero => simp; exact fun h => h2 h.symm
          | succ j => simpa using a3 j (by omega)

/-- C45 (findInSortedSequence): on every non-empty sorted sequence the result is true iff the value occurs; then `position`
is the first place where it occurs, and otherwise `position` is unchanged. -/
theorem C45_find (seq : List α) (hne : seq ≠ []) (hs : seq.Pairwise (· ≤ ·)) (toFind : α) (position : Nat) :
    ∃ found pos, findInSortedSequence (fun a b => decide (a < b)) (fun a b => decide (a = b)) seq toFind position = some (found, pos) ∧
      (found = true ↔ toFind ∈ seq) ∧
      (found = true → seq[pos]? = some toFind ∧ ∀ j < pos, seq[j]? ≠ some toFind) ∧
      (found = false → pos = position) := by
  unfold findInSortedSequence
  rw [List.getLast?_eq_getLast_of_ne_nil hne]
  simp only
  by_cases h : seq.getLast hne < toFind
  · simp only [h, decide_true, if_true]
    refine ⟨false, position, rfl, ?_, by simp, by simp⟩
    simp only [Bool.false_eq_true, false_iff]
    intro hm
    have : toFind ≤ seq.getLast hne := by
      obtain ⟨i, hi, rfl⟩ := List.getElem_of_mem hm
      rw [List.getLast_eq_getElem]
      by_cases e : i = seq.length - 1
      · simp [e]
      · exact (List.pairwise_iff_getElem.mp hs) i (seq.length - 1) hi (by omega) (by omega)
    exact absurd this (not_le.mpr h)
  · simp only [h, decide_false, Bool.false_eq_true, if_false]
    rcases findLoop_spec toFind position seq 0 hs with ⟨a1, a2⟩ | ⟨k, a1, a2, a3⟩
    · exact ⟨false, position, by rw [a2], by simp [a1], by simp, by simp⟩
    · rw [Nat.zero_add] at a1
      exact ⟨true, k, by rw [a1], by simpa using List.mem_of_getElem? a2, fun _ => ⟨a2, a3⟩, by simp⟩

/-- An empty sequence is read at position -1. -/
theorem C45_find_violated (lt eq : α → α → Bool) (toFind : α) (position : Nat) :
    findInSortedSequence lt eq [] toFind position = none := rfl

example : findInSortedSequence (fun a b => decide (a < b)) (fun a b => decide (a = b)) [2, 4, 4, 7] 4 9 = some (true, 1) := by decide
example : [2, 4, 4, 7].Pairwise (· ≤ ·) := by decide

theorem collectPairs_eq : ∀ (as : List α) (bs : List β), as.length ≤ bs.length → collectPairs as bs = some (as.zip bs) := by
  intro as
  induction as with
  | nil => intro bs _; simp [collectPairs]
  | cons a as ih =>
    intro bs h
    cases bs with
    | nil => simp at h
    | cons b bs => simp only [collectPairs, ih bs (by simpa using h), List.zip_cons_cons]

theorem writePairs_eq : ∀ (as : List α) (bs : List β) (ps : List (α × β)), as.length ≤ bs.length → ps.length = as.length →
    writePairs as bs ps = some (ps.map Prod.fst, ps.map Prod.snd ++ bs.drop as.length) := by
  intro as
  induction as with
  | nil =>
    intro bs ps _ h
    have : ps = [] := List.length_eq_zero_iff.mp h
    subst this
    simp [writePairs]
  | cons a as ih =>
    intro bs ps h1 h2
    match bs, ps, h1, h2 with
    | b :: bs, (x, y) :: ps, h1, h2 =>
      simp only [writePairs, ih bs ps (by simpa using h1) (by simpa using h2), List.map_cons, List.length_cons, List.drop_succ_cons,
        List.cons_append]

/-- C45 (doubleSort): whatever correct `std::sort` is used, `doubleSort` rearranges the two sequences by one common
permutation (the list of pairs is a permutation of the original one), the first sequence ends up sorted, and elements of the
second sequence beyond the length of the first are left alone. -/
theorem C45_doubleSort (sort : List (α × β) → List (α × β)) (hperm : ∀ l, (sort l).Perm l)
    (hsort : ∀ l, (sort l).Pairwise (fun a b => ¬ b.1 < a.1)) (as : List α) (bs : List β) (h : as.length ≤ bs.length) :
    ∃ as' bs', doubleSort sort as bs = some (as', bs') ∧ as'.length = as.length ∧ bs'.length = bs.length ∧
      as'.Pairwise (· ≤ ·) ∧ (as'.zip bs').Perm (as.zip bs) ∧ bs'.drop as.length = bs.drop as.length := by
  have hl : (as.zip bs).length = as.length := by simp [h]
  have hl' : (sort (as.zip bs)).length = as.length := by rw [(hperm _).length_eq, hl]
  refine ⟨(sort (as.zip bs)).map Prod.fst, (sort (as.zip bs)).map Prod.snd ++ bs.drop as.length, ?_, ?_, ?_, ?_, ?_, ?_⟩
  · unfold doubleSort
    rw [collectPairs_eq as bs h]
    exact writePairs_eq as bs _ h hl'
  · simp [hl']
  · simp [hl']; omega
  · rw [List.pairwise_map]
    exact (hsort _).imp (fun h => not_lt.mp h)
  · have : ∀ ps : List (α × β), ∀ r, (ps.map Prod.fst).zip (ps.map Prod.snd ++ r) = ps := by
      intro ps
      induction ps with
      | nil => simp
      | cons p ps ih => intro r; simp [ih]
    rw [this]
    exact hperm _
  · rw [List.drop_append_of_le_length (by simp [hl'])]
    simp [hl']

example : doubleSort (List.mergeSort · (fun a b : Nat × Char => decide (a.1 ≤ b.1))) [3, 1, 2] ['c', 'a', 'b', 'z'] =
    some ([1, 2, 3], ['a', 'b', 'c', 'z']) := by simp [doubleSort, collectPairs, writePairs, List.mergeSort, List.MergeSort.Internal.splitInTwo, List.splitAt, List.splitAt.go, List.merge]

end

/-! ### C47 -/

theorem powLoop_spec (w : Nat) : ∀ (fuel base exponent result : Nat), exponent ≤ fuel → result < 2 ^ w →
    powLoop w fuel base exponent result = some (result * base ^ exponent % 2 ^ w) := by
  intro fuel
  induction fuel with
  | zero =>
    intro base exponent result h hr
    have : exponent = 0 := by omega
    subst this
    simp [powLoop, Nat.mod_eq_of_lt hr]
  | succ fuel ih =>
    intro base exponent result h hr
    unfold powLoop
    by_cases h0 : exponent = 0
    · subst h0; simp [Nat.mod_eq_of_lt hr]
    · rw [if_neg h0]
      simp only
      have hpos : 0 < 2 ^ w := Nat.two_pow_pos w
      have hlt : (if exponent % 2 = 1 then result * base % 2 ^ w else result) < 2 ^ w := by
        split
        · exact Nat.mod_lt _ hpos
        · exact hr
      rw [ih _ _ _ (by omega) hlt]
      congr 1
      have hb : (base * base % 2 ^ w) ^ (exponent / 2) ≡ base ^ (2 * (exponent / 2)) [MOD 2 ^ w] := by
        have := (Nat.mod_modEq (base * base) (2 ^ w)).pow (exponent / 2)
        rw [pow_mul, sq]
        exact this
      by_cases ho : exponent % 2 = 1
      · rw [if_pos ho]
        have he : exponent = 2 * (exponent / 2) + 1 := by omega
        have h1 := (Nat.mod_modEq (result * base) (2 ^ w)).mul hb
        rw [Nat.ModEq] at h1
        rw [h1]
        conv_rhs => rw [he]
        congr 1
        rw [pow_succ]
        ring
      · rw [if_neg ho]
        have he : exponent = 2 * (exponent / 2) := by omega
        have h1 := (Nat.ModEq.refl (n := 2 ^ w) result).mul hb
        rw [Nat.ModEq] at h1
        rw [h1]
        conv_rhs => rw [he]

/-- C47: on machine words of any positive number of bits `unsignedIntegerPow(base, exponent)` terminates and returns base to the
power exponent, reduced modulo the word size. -/
theorem C47_pow (w : Nat) (hw : 0 < w) (base exponent : Nat) :
    unsignedIntegerPow w base exponent = some (base ^ exponent % 2 ^ w) := by
  have h2 : 1 < 2 ^ w := Nat.one_lt_two_pow (by omega)
  unfold unsignedIntegerPow
  by_cases h : base = 1
  · rw [if_pos h, h, one_pow, Nat.mod_eq_of_lt h2]
  · rw [if_neg h]
    by_cases h' : base = 0 ∧ exponent > 0
    · rw [if_pos h', h'.1, zero_pow (by omega), Nat.zero_mod]
    · rw [if_neg h', powLoop_spec w exponent base exponent 1 (Nat.le_refl _) h2, one_mul]

example : unsignedIntegerPow 8 7 5 = some (16807 % 256) := by decide

/-! ### C48 -/

namespace Tribool

/-- C48 (partial): comparison with `true` is consistent, a Tribool is in exactly one of the three states, and conversion from a
number keeps -1 and 0 and makes everything else true.
Missing: `!=` with `false` (`C48_violated`) and `==` of two Tribools (`C48_violated_eq`). -/
theorem C48_tribool_partial (t : Tribool) :
    (t.neBool true = !t.eqBool true) ∧
    (t.eqBool true = t.toBool) ∧ (t.eqBool false = t.not_) ∧ (t.isMaybe = (!t.eqBool true && !t.eqBool false)) ∧
    (ofInt t.value = t) ∧ (∀ n : Int, n ≠ -1 → (ofInt n).eqBool (decide (n ≠ 0)) = true) ∧ (∀ n : Int, t.eqInt n = true ↔ n = t.value) := by
  refine ⟨?_, ?_, ?_, ?_, ?_, ?_, ?_⟩
  · cases t <;> rfl
  · cases t <;> rfl
  · cases t <;> rfl
  · cases t <;> rfl
  · cases t <;> rfl
  · intro n hn
    unfold ofInt
    rw [if_neg hn]
    by_cases h : n = 0
    · subst h; rfl
    · rw [if_neg h]; simp [h, eqBool, value]
  · intro n; simp [eqInt]

/-- C48 is violated: both `t == false` and `t != false` hold for a Tribool that is false, and neither holds for one that is
true. -/
theorem C48_violated : (false_.eqBool false = true ∧ false_.neBool false = true) ∧
    (true_.eqBool false = false ∧ true_.neBool false = false) := by decide

/-- C48 is violated for two Tribools: "maybe" is not equal to itself, "false" equals "maybe", and this is not symmetric. -/
theorem C48_violated_eq : maybe_.eqTribool maybe_ = false ∧ false_.eqTribool maybe_ = true ∧ maybe_.eqTribool false_ = false := by
  decide

/-- `&=` with false gives false; with true it gives true unless the value was false, so "maybe" is lost; with "maybe" it does
nothing. -/
theorem C48_andAssign (t : Tribool) : t.andAssign false_ = false_ ∧ t.andAssign maybe_ = t ∧
    (t.andAssign true_ = if t = false_ then false_ else true_) := by cases t <;> decide

end Tribool
end OpenGM.Util
