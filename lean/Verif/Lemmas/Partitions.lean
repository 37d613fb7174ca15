import Verif.Model.Partitions
import Verif.Spec.SetPartitions
import Mathlib.Data.List.Sort
import Mathlib.Data.List.Nodup
import Mathlib.Data.List.Perm.Basic
import Mathlib.Data.Nat.Bitwise
import Mathlib.Tactic.Ring
import Mathlib.Tactic.Linarith
/-
Lemmas for C46.
-/
namespace OpenGM.Partitions
open Spec

/-! ### Numbers -/

/-- Bits that say which of the labels equal `x`. -/
def flags (x : Nat) : List Nat → Nat
  | [] => 0
  | y :: ys => (if x = y then 1 else 0) + 2 * flags x ys

/-- The number of `pre ++ rest` without the bits of `pre`. -/
def code : List Nat → List Nat → Nat
  | _, [] => 0
  | pre, x :: xs => flags x pre + 2 ^ pre.length * code (pre ++ [x]) xs

/-- Number of bits. -/
def bits : Nat → Nat → Nat
  | _, 0 => 0
  | n, k + 1 => n + bits (n + 1) k

theorem flags_lt (x : Nat) : ∀ l : List Nat, flags x l < 2 ^ l.length := by
  intro l
  induction l with
  | nil => simp [flags]
  | cons y ys ih =>
    simp only [flags, List.length_cons, pow_succ]
    split <;> omega

theorem bits_eq : ∀ (k n : Nat), 2 * bits n k = k * (2 * n + k - 1) := by
  intro k
  induction k with
  | zero => simp [bits]
  | succ k ih =>
    intro n
    rw [bits, Nat.mul_add, ih]
    have h1 : 2 * (n + 1) + k - 1 = 2 * n + k + 1 := by omega
    have h2 : 2 * n + (k + 1) - 1 = 2 * n + k := by omega
    rw [h1, h2]
    ring

theorem bits_zero (N : Nat) : bits 0 N = N * (N - 1) / 2 := by
  have := bits_eq N 0
  simp only [Nat.mul_zero, Nat.zero_add] at this
  omega

theorem code_lt : ∀ (rest pre : List Nat), code pre rest < 2 ^ bits pre.length rest.length := by
  intro rest
  induction rest with
  | nil => intro pre; simp [code, bits]
  | cons x xs ih =>
    intro pre
    simp only [code, List.length_cons, bits, pow_add]
    have h1 := ih (pre ++ [x])
    simp only [List.length_append, List.length_singleton] at h1
    have h2 := flags_lt x pre
    calc flags x pre + 2 ^ pre.length * code (pre ++ [x]) xs < 2 ^ pre.length * 1 + 2 ^ pre.length * code (pre ++ [x]) xs := by omega
      _ = 2 ^ pre.length * (1 + code (pre ++ [x]) xs) := by ring
      _ ≤ 2 ^ pre.length * 2 ^ bits (pre.length + 1) xs.length := Nat.mul_le_mul_left _ (by omega)

theorem numInner_eq (w x : Nat) : ∀ (ys : List Nat) (ind k : Nat), ind < 2 ^ k → k + ys.length ≤ w →
    numInner w x ys ind (2 ^ k % 2 ^ w) = (ind + 2 ^ k * flags x ys, 2 ^ (k + ys.length) % 2 ^ w) := by
  intro ys
  induction ys with
  | nil => intro ind k _ _; simp [numInner, flags]
  | cons y ys ih =>
    intro ind k hi hk
    simp only [List.length_cons] at hk
    have hkw : 2 ^ k < 2 ^ w := Nat.pow_lt_pow_right (by omega) (by omega)
    have hk1 : 2 ^ (k + 1) ≤ 2 ^ w := Nat.pow_le_pow_right (by omega) (by omega)
    have hlt : ind + 2 ^ k * (if x = y then 1 else 0) < 2 ^ (k + 1) := by
      rw [pow_succ]; split <;> omega
    unfold numInner
    rw [Nat.mod_eq_of_lt hkw, Nat.mod_eq_of_lt (lt_of_lt_of_le hlt hk1), ← pow_succ, ih _ (k + 1) hlt (by omega)]
    simp only [flags, Prod.mk.injEq, List.length_cons]
    refine ⟨?_, by congr 2; omega⟩
    rw [pow_succ]
    ring

theorem numOuter_eq (w : Nat) : ∀ (rest pre : List Nat) (ind k : Nat), ind < 2 ^ k → k + bits pre.length rest.length ≤ w →
    numOuter w pre rest ind (2 ^ k % 2 ^ w) = ind + 2 ^ k * code pre rest := by
  intro rest
  induction rest with
  | nil => intro pre ind k _ _; simp [numOuter, code]
  | cons x xs ih =>
    intro pre ind k hi hk
    simp only [List.length_cons, bits] at hk
    unfold numOuter
    rw [numInner_eq w x pre ind k hi (by omega)]
    have hlt : ind + 2 ^ k * flags x pre < 2 ^ (k + pre.length) := by
      have := flags_lt x pre
      rw [pow_add]
      calc ind + 2 ^ k * flags x pre < 2 ^ k * 1 + 2 ^ k * flags x pre := by omega
        _ = 2 ^ k * (1 + flags x pre) := by ring
        _ ≤ 2 ^ k * 2 ^ pre.length := Nat.mul_le_mul_left _ (by omega)
    rw [ih (pre ++ [x]) _ (k + pre.length) hlt (by simp only [List.length_append, List.length_singleton]; omega)]
    simp only [code]
    rw [pow_add]
    ring

theorem label2Number_eq {w : Nat} {l : List Nat} (h : bits 0 l.length ≤ w) : label2Number w l = code [] l := by
  have := numOuter_eq w l [] 0 0 (by simp) (by simpa using h)
  simp only [pow_zero, Nat.zero_add, Nat.one_mul] at this
  exact this

/-! ### Numbers describe partitions -/

theorem flags_inj {x x' : Nat} : ∀ {l l' : List Nat}, l.length = l'.length →
    (flags x l = flags x' l' ↔ ∀ i : Nat, i < l.length → (l[i]? = some x ↔ l'[i]? = some x')) := by
  intro l
  induction l with
  | nil =>
    intro l' h
    have : l' = [] := List.length_eq_zero_iff.mp h.symm
    subst this
    simp [flags]
  | cons y ys ih =>
    intro l' h
    match l', h with
    | y' :: ys', h =>
      have hlen : ys.length = ys'.length := by simpa using h
      simp only [flags]
      constructor
      · intro he
        have h1 : (x = y ↔ x' = y') ∧ flags x ys = flags x' ys' := by
          by_cases c : x = y <;> by_cases c' : x' = y' <;> simp only [c, c', if_true, if_false] at he ⊢ <;>
            first | (constructor; trivial; omega) | (exfalso; omega) | skip
          all_goals omega
        intro i hi
        cases i with
        | zero =>
          simp only [List.getElem?_cons_zero, Option.some.injEq]
          rw [eq_comm, h1.1, eq_comm]
        | succ i => simpa using (ih hlen).mp h1.2 i (by simpa using hi)
      · intro ha
        have h0 := ha 0 (by simp)
        simp only [List.getElem?_cons_zero, Option.some.injEq] at h0
        have h1 : (x = y) ↔ (x' = y') := by rw [eq_comm, h0, eq_comm]
        have h2 := (ih hlen).mpr (fun i hi => by simpa using ha (i + 1) (by simpa using hi))
        rw [h2]
        by_cases c : x = y
        · rw [if_pos c, if_pos (h1.mp c)]
        · rw [if_neg c, if_neg (fun h => c (h1.mpr h))]

theorem same_append {pre pre' : List Nat} {x x' : Nat} (h : pre.length = pre'.length) :
    SamePartition (pre ++ [x]) (pre' ++ [x']) ↔ SamePartition pre pre' ∧ ∀ i : Nat, i < pre.length → (pre[i]? = some x ↔ pre'[i]? = some x') := by
  constructor
  · rintro ⟨_, h2⟩
    refine ⟨⟨h, ?_⟩, ?_⟩
    · intro i j hi hj
      have := h2 i j (by simp; omega) (by simp; omega)
      rwa [List.getElem?_append_left hi, List.getElem?_append_left hj, List.getElem?_append_left (by omega),
        List.getElem?_append_left (by omega)] at this
    · intro i hi
      have hx : (pre ++ [x])[pre.length]? = some x := by simp
      have hx' : (pre' ++ [x'])[pre.length]? = some x' := by rw [h]; simp
      have := h2 i pre.length (by simp; omega) (by simp)
      rwa [hx, hx', List.getElem?_append_left hi, List.getElem?_append_left (by omega)] at this
  · rintro ⟨⟨_, h1⟩, h2⟩
    refine ⟨by simp [h], ?_⟩
    have hx : (pre ++ [x])[pre.length]? = some x := by simp
    have hx' : (pre' ++ [x'])[pre.length]? = some x' := by rw [h]; simp
    intro i j hi hj
    simp only [List.length_append, List.length_singleton] at hi hj
    by_cases ei : i < pre.length
    · by_cases ej : j < pre.length
      · rw [List.getElem?_append_left ei, List.getElem?_append_left ej, List.getElem?_append_left (by omega),
          List.getElem?_append_left (by omega)]
        exact h1 i j ei ej
      · have : j = pre.length := by omega
        subst this
        rw [hx, hx', List.getElem?_append_left ei, List.getElem?_append_left (by omega)]
        exact h2 i ei
    · have : i = pre.length := by omega
      subst this
      by_cases ej : j < pre.length
      · rw [hx, hx', List.getElem?_append_left ej, List.getElem?_append_left (by omega), eq_comm, h2 j ej, eq_comm]
      · have : j = pre.length := by omega
        subst this
        simp

theorem code_inj : ∀ {rest rest' pre pre' : List Nat}, pre.length = pre'.length → rest.length = rest'.length → SamePartition pre pre' →
    (code pre rest = code pre' rest' ↔ SamePartition (pre ++ rest) (pre' ++ rest')) := by
  intro rest
  induction rest with
  | nil =>
    intro rest' pre pre' h1 h2 h3
    have : rest' = [] := List.length_eq_zero_iff.mp h2.symm
    subst this
    simpa [code] using h3
  | cons x xs ih =>
    intro rest' pre pre' h1 h2 h3
    match rest', h2 with
    | x' :: xs', h2 =>
      have hl : xs.length = xs'.length := by simpa using h2
      have e1 : pre ++ x :: xs = (pre ++ [x]) ++ xs := by simp
      have e2 : pre' ++ x' :: xs' = (pre' ++ [x']) ++ xs' := by simp
      simp only [code]
      constructor
      · intro he
        have hf := flags_lt x pre
        have hf' := flags_lt x' pre'
        rw [← h1] at hf' he
        have hm : flags x pre = flags x' pre' := by
          have := congrArg (· % 2 ^ pre.length) he
          simp only [Nat.add_mul_mod_self_left] at this
          rwa [Nat.mod_eq_of_lt hf, Nat.mod_eq_of_lt hf'] at this
        have hc : code (pre ++ [x]) xs = code (pre' ++ [x']) xs' := by
          rw [hm] at he
          exact Nat.eq_of_mul_eq_mul_left (Nat.two_pow_pos _) (Nat.add_left_cancel he)
        rw [e1, e2]
        have hs := (same_append (x := x) (x' := x') h1).mpr ⟨h3, (flags_inj h1).mp hm⟩
        exact (ih (by simp [h1]) hl hs).mp hc
      · intro hs
        rw [e1, e2] at hs
        have hs1 : SamePartition (pre ++ [x]) (pre' ++ [x']) := by
          refine ⟨by simp [h1], ?_⟩
          intro i j hi hj
          have := hs.2 i j (by simp at hi ⊢; omega) (by simp at hj ⊢; omega)
          have hi' : i < (pre' ++ [x']).length := by simp at hi ⊢; omega
          have hj' : j < (pre' ++ [x']).length := by simp at hj ⊢; omega
          rwa [List.getElem?_append_left hi, List.getElem?_append_left hj, List.getElem?_append_left hi',
            List.getElem?_append_left hj'] at this
        rw [(flags_inj h1).mpr ((same_append h1).mp hs1).2, (ih (by simp [h1]) hl hs1).mpr hs, h1]

theorem same_nil : SamePartition [] [] := ⟨rfl, by simp⟩

theorem code_eq_iff {l l' : List Nat} (h : l.length = l'.length) : code [] l = code [] l' ↔ SamePartition l l' := by
  have := code_inj (rest := l) (rest' := l') rfl h same_nil
  simpa using this

theorem SamePartition.symm {l l' : List Nat} (h : SamePartition l l') : SamePartition l' l :=
  ⟨h.1.symm, fun i j hi hj => (h.2 i j (by rw [h.1]; exact hi) (by rw [h.1]; exact hj)).symm⟩

theorem SamePartition.trans {l l' l'' : List Nat} (h : SamePartition l l') (h' : SamePartition l' l'') : SamePartition l l'' :=
  ⟨h.1.trans h'.1, fun i j hi hj => (h.2 i j hi hj).trans (h'.2 i j (by rw [← h.1]; exact hi) (by rw [← h.1]; exact hj))⟩

/-! ### Restricted growth -/

/-- Largest label. -/
def top (l : List Nat) : Nat := l.foldr max 0

theorem maxV_fst : ∀ l : List Nat, (maxV l).1 = top l := by
  intro l
  induction l with
  | nil => rfl
  | cons x xs ih => simp only [maxV, ih, top, List.foldr_cons]; exact max_comm _ _

theorem top_cons (x : Nat) (xs : List Nat) : top (x :: xs) = max x (top xs) := rfl

theorem le_top_of_mem {l : List Nat} {x : Nat} (h : x ∈ l) : x ≤ top l := by
  induction l with
  | nil => simp at h
  | cons y ys ih =>
    rw [top_cons]
    rcases List.mem_cons.mp h with rfl | h
    · exact le_max_left _ _
    · exact le_trans (ih h) (le_max_right _ _)

/-- Reading from the back, every label is at most one more than the largest label so far. -/
def RG : List Nat → Prop
  | [] => True
  | [x] => x = 0
  | x :: y :: xs => x ≤ top (y :: xs) + 1 ∧ RG (y :: xs)

theorem RG_cons {x : Nat} {xs : List Nat} (h : xs ≠ []) : RG (x :: xs) ↔ x ≤ top xs + 1 ∧ RG xs := by
  cases xs with
  | nil => exact absurd rfl h
  | cons y ys => rfl

theorem RG.top_lt : ∀ {l : List Nat}, RG l → l ≠ [] → top l < l.length := by
  intro l
  induction l with
  | nil => intro _ h; exact absurd rfl h
  | cons x xs ih =>
    intro h _
    by_cases e : xs = []
    · subst e
      have : x = 0 := h
      subst this
      simp [top]
    · rw [RG_cons e] at h
      have := ih h.2 e
      rw [top_cons, List.length_cons]
      omega

theorem RG.mem : ∀ {l : List Nat}, RG l → l ≠ [] → ∀ k, k ≤ top l → k ∈ l := by
  intro l
  induction l with
  | nil => intro _ h; exact absurd rfl h
  | cons x xs ih =>
    intro h _ k hk
    by_cases e : xs = []
    · subst e
      have : x = 0 := h
      subst this
      simp [top] at hk
      simp [hk]
    · rw [RG_cons e] at h
      rw [top_cons] at hk
      by_cases hx : k ≤ top xs
      · exact List.mem_cons_of_mem _ (ih h.2 e k hx)
      · have : k = x := by omega
        subst this
        simp

/-- `increment`, by recursion. -/
def inc : List Nat → Option (List Nat)
  | [] => none
  | x :: xs => if x < xs.length ∧ (xs = [] ∨ x ≤ top xs) then some ((x + 1) :: xs) else (inc xs).map (0 :: ·)

theorem findPos_inc (N : Nat) : ∀ (l : List Nat) (p : Nat), p + l.length = N →
    (findPos N p l (maxV l).2 = none ∧ inc l = none) ∨
    ∃ k, findPos N p l (maxV l).2 = some (p + k) ∧ inc l = some (bump l k) := by
  intro l
  induction l with
  | nil => intro p _; left; simp [findPos, inc]
  | cons x xs ih =>
    intro p hp
    simp only [List.length_cons] at hp
    have e1 : N - 1 - p = xs.length := by omega
    have e2 : p = N - 1 ↔ xs = [] := by rw [← List.length_eq_zero_iff]; omega
    simp only [maxV, findPos, inc, e1, e2, maxV_fst]
    by_cases c : x < xs.length ∧ (xs = [] ∨ x ≤ top xs)
    · right
      exact ⟨0, by rw [if_pos c]; rfl, by rw [if_pos c]; rfl⟩
    · rw [if_neg c, if_neg c]
      rcases ih (p + 1) (by omega) with ⟨a1, a2⟩ | ⟨k, a1, a2⟩
      · left; exact ⟨a1, by rw [a2]; rfl⟩
      · right
        exact ⟨k + 1, by rw [a1]; congr 1; omega, by rw [a2]; rfl⟩

theorem increment_eq (l : List Nat) : increment l = inc l := by
  unfold increment
  rcases findPos_inc l.length l 0 (by omega) with ⟨a1, a2⟩ | ⟨k, a1, a2⟩
  · rw [a1, a2]
  · rw [a1, a2, Nat.zero_add]

/-- All restricted growth labelings, first position fastest. -/
def gen : Nat → List (List Nat)
  | 0 => [[]]
  | 1 => [[0]]
  | n + 2 => (gen (n + 1)).flatMap (fun xs => (List.range (top xs + 2)).map (· :: xs))

theorem gen_length : ∀ (n : Nat), ∀ l ∈ gen n, l.length = n := by
  intro n
  induction n using Nat.strongRecOn with
  | ind n ih =>
    match n with
    | 0 => simp [gen]
    | 1 => simp [gen]
    | n + 2 =>
      intro l hl
      simp only [gen, List.mem_flatMap, List.mem_map] at hl
      obtain ⟨xs, h1, x, _, rfl⟩ := hl
      simp [ih (n + 1) (by omega) xs h1]

theorem mem_gen : ∀ (n : Nat) (l : List Nat), l ∈ gen n ↔ RG l ∧ l.length = n := by
  intro n
  induction n using Nat.strongRecOn with
  | ind n ih =>
    intro l
    match n with
    | 0 => simp only [gen, List.mem_singleton, List.length_eq_zero_iff]; constructor
           · rintro rfl; exact ⟨trivial, rfl⟩
           · exact fun h => h.2
    | 1 =>
      simp only [gen, List.mem_singleton, List.length_eq_one_iff]
      constructor
      · rintro rfl; exact ⟨rfl, 0, rfl⟩
      · rintro ⟨h, x, rfl⟩
        have : x = 0 := h
        rw [this]
    | n + 2 =>
      simp only [gen, List.mem_flatMap, List.mem_map, List.mem_range]
      constructor
      · rintro ⟨xs, h1, x, h2, rfl⟩
        obtain ⟨h3, h4⟩ := (ih (n + 1) (by omega) xs).mp h1
        have hne : xs ≠ [] := by rintro rfl; simp at h4
        exact ⟨(RG_cons hne).mpr ⟨by omega, h3⟩, by simp [h4]⟩
      · rintro ⟨h1, h2⟩
        match l, h2 with
        | x :: xs, h2 =>
          simp only [List.length_cons] at h2
          have hne : xs ≠ [] := by rintro rfl; simp at h2
          rw [RG_cons hne] at h1
          exact ⟨xs, (ih (n + 1) (by omega) xs).mpr ⟨h1.2, by omega⟩, x, by omega, rfl⟩

theorem gen_nodup : ∀ (n : Nat), (gen n).Nodup := by
  intro n
  induction n using Nat.strongRecOn with
  | ind n ih =>
    match n with
    | 0 => simp [gen]
    | 1 => simp [gen]
    | n + 2 =>
      simp only [gen]
      rw [List.nodup_flatMap]
      refine ⟨?_, ?_⟩
      · intro xs _
        exact List.nodup_range.map (fun a b h => by simpa using h)
      · refine (ih (n + 1) (by omega)).imp ?_
        intro a b hab
        simp only [Function.onFun, List.disjoint_left, List.mem_map]
        rintro l ⟨x, _, rfl⟩ ⟨y, _, h⟩
        simp only [List.cons.injEq] at h
        exact hab h.2.symm

/-! ### Canonical labelings -/

theorem same_cons {x y : Nat} {xs ys : List Nat} (h : xs.length = ys.length) :
    SamePartition (x :: xs) (y :: ys) ↔ SamePartition xs ys ∧ ∀ i : Nat, i < xs.length → (xs[i]? = some x ↔ ys[i]? = some y) := by
  constructor
  · rintro ⟨_, h2⟩
    refine ⟨⟨h, ?_⟩, ?_⟩
    · intro i j hi hj
      simpa using h2 (i + 1) (j + 1) (by simpa using hi) (by simpa using hj)
    · intro i hi
      simpa using h2 (i + 1) 0 (by simpa using hi) (by simp)
  · rintro ⟨⟨_, h1⟩, h2⟩
    refine ⟨by simp [h], ?_⟩
    intro i j hi hj
    simp only [List.length_cons] at hi hj
    cases i with
    | zero =>
      cases j with
      | zero => simp
      | succ j =>
        simp only [List.getElem?_cons_zero, List.getElem?_cons_succ]
        rw [eq_comm, h2 j (by omega), eq_comm]
    | succ i =>
      cases j with
      | zero => simpa using h2 i (by omega)
      | succ j => simpa using h1 i j (by omega) (by omega)

theorem RG_unique : ∀ {l l' : List Nat}, RG l → RG l' → SamePartition l l' → l = l' := by
  intro l
  induction l with
  | nil =>
    intro l' _ _ h
    exact (List.length_eq_zero_iff.mp h.1.symm).symm
  | cons x xs ih =>
    intro l' h h' hs
    match l', hs with
    | [], hs => simp [SamePartition] at hs
    | y :: ys, hs =>
      have hl : xs.length = ys.length := by simpa using hs.1
      obtain ⟨s1, s2⟩ := (same_cons hl).mp hs
      by_cases e : xs = []
      · have e' : ys = [] := List.length_eq_zero_iff.mp (by rw [← hl, e]; rfl)
        subst e; subst e'
        have h1 : x = 0 := h
        have h2 : y = 0 := h'
        rw [h1, h2]
      · have e' : ys ≠ [] := by rintro rfl; exact e (List.length_eq_zero_iff.mp (by simpa using hl))
        rw [RG_cons e] at h
        rw [RG_cons e'] at h'
        have := ih h.2 h'.2 s1
        subst this
        congr 1
        by_cases hx : x ∈ xs
        · obtain ⟨i, hi, hxi⟩ := List.getElem_of_mem hx
          have h1 := (s2 i hi).mp (by rw [List.getElem?_eq_getElem hi, hxi])
          rw [List.getElem?_eq_getElem hi, hxi] at h1
          exact Option.some.inj h1
        · have hy : y ∉ xs := by
            intro hy
            obtain ⟨i, hi, hyi⟩ := List.getElem_of_mem hy
            have h1 := (s2 i hi).mpr (by rw [List.getElem?_eq_getElem hi, hyi])
            exact hx (List.mem_of_getElem? h1)
          have a : ¬ x ≤ top xs := fun hle => hx (h.2.mem e x hle)
          have b : ¬ y ≤ top xs := fun hle => hy (h.2.mem e y hle)
          omega

theorem RG_exists : ∀ l : List Nat, ∃ r, RG r ∧ SamePartition r l := by
  intro l
  induction l with
  | nil => exact ⟨[], trivial, same_nil⟩
  | cons a l ih =>
    obtain ⟨r, h1, h2⟩ := ih
    by_cases e : r = []
    · subst e
      have : l = [] := List.length_eq_zero_iff.mp h2.1.symm
      subst this
      exact ⟨[0], rfl, by refine ⟨rfl, ?_⟩; intro i j hi hj; simp at hi hj; subst hi; subst hj; simp⟩
    · by_cases ha : a ∈ l
      · obtain ⟨i, hi, hai⟩ := List.getElem_of_mem ha
        have hir : i < r.length := by rw [h2.1]; exact hi
        refine ⟨r[i] :: r, (RG_cons e).mpr ⟨le_trans (le_top_of_mem (List.getElem_mem hir)) (by omega), h1⟩, ?_⟩
        rw [same_cons h2.1]
        refine ⟨h2, ?_⟩
        intro j hj
        have := h2.2 j i hj hir
        rw [List.getElem?_eq_getElem hir, List.getElem?_eq_getElem hi, hai] at this
        exact this
      · refine ⟨(top r + 1) :: r, (RG_cons e).mpr ⟨Nat.le_refl _, h1⟩, ?_⟩
        rw [same_cons h2.1]
        refine ⟨h2, ?_⟩
        intro j hj
        constructor
        · intro h
          have := le_top_of_mem (List.mem_of_getElem? h)
          omega
        · intro h
          exact absurd (List.mem_of_getElem? h) ha

end OpenGM.Partitions
