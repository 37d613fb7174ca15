import Mathlib.Data.List.Nodup
import Mathlib.Data.List.Perm.Basic
import Verif.Model.Queues
/-
The heap of ChangeablePriorityQueue.
-/
namespace OpenGM
open Spec

theorem _root_.OpenGM.Spec.StrictWeak.asymm {P : Type} {lt : P → P → Bool} (h : StrictWeak lt) {a b : P} (hab : lt a b = true) : lt b a = false := by
  cases hba : lt b a with
  | false => rfl
  | true => exact absurd (h.trans a b a hab hba) (by rw [h.irrefl]; simp)

/-- Transitivity of "not greater". -/
theorem _root_.OpenGM.Spec.StrictWeak.le_trans {P : Type} {lt : P → P → Bool} (h : StrictWeak lt) {a b c : P} (hab : lt b a = false) (hbc : lt c b = false) :
    lt c a = false := by
  cases hca : lt c a with
  | false => rfl
  | true =>
    rcases h.split c a b hca with h1 | h1
    · rw [hbc] at h1; simp at h1
    · rw [hab] at h1; simp at h1

namespace PQ
variable {P : Type}

theorem gt_eq {lt : P → P → Bool} (h : StrictWeak lt) (a b : P) : gt lt a b = lt b a := by
  unfold gt
  cases hab : lt a b with
  | true => rw [h.asymm hab]; rfl
  | false => cases lt b a <;> rfl

/-- Positions `1..N` of the heap hold items, and `indices` is the inverse. -/
structure Bij (q : PQ P) (N : Nat) : Prop where
  heapLen : q.heap.length = q.maxSize + 1
  indLen : q.indices.length = q.maxSize + 1
  prLen : q.priorities.length = q.maxSize + 1
  bound : N ≤ q.maxSize
  zero : q.heap[0]? = some (some 0)
  pos : ∀ k, 1 ≤ k → k ≤ N → ∃ i, q.heap[k]? = some (some i) ∧ q.indices[i]? = some (some k)
  inv : ∀ i k, q.indices[i]? = some (some k) → 1 ≤ k ∧ k ≤ N ∧ q.heap[k]? = some (some i)

/-- Priorities at the positions of the heap. -/
def Keys (q : PQ P) (N : Nat) (K : Nat → P) : Prop := ∀ k, 1 ≤ k → k ≤ N → q.prioAt k = some (K k)

/-- The part of the state a swap does not change. -/
structure Same (q q' : PQ P) : Prop where
  maxSize : q'.maxSize = q.maxSize
  cur : q'.cur = q.cur
  priorities : q'.priorities = q.priorities
  items : ∀ i : Nat, (∃ k, q'.indices[i]? = some (some k)) ↔ ∃ k, q.indices[i]? = some (some k)

theorem Same.refl (q : PQ P) : Same q q := ⟨rfl, rfl, rfl, fun _ => Iff.rfl⟩

theorem Same.trans {a b c : PQ P} (h : Same a b) (h' : Same b c) : Same a c :=
  ⟨h'.maxSize.trans h.maxSize, h'.cur.trans h.cur, h'.priorities.trans h.priorities, fun i => (h'.items i).trans (h.items i)⟩

def swapK (K : Nat → P) (i j k : Nat) : P := if k = i then K j else if k = j then K i else K k

theorem Bij.item_lt {q : PQ P} {N : Nat} (h : Bij q N) {i k : Nat} (hi : q.indices[i]? = some (some k)) : i < q.maxSize + 1 := by
  rw [← h.indLen]; exact (List.getElem?_eq_some_iff.mp hi).1

theorem Bij.keys_exist {q : PQ P} {N : Nat} (h : Bij q N) (p0 : P) : ∃ K, Keys q N K := by
  refine ⟨fun k => (q.prioAt k).getD p0, ?_⟩
  intro k h1 h2
  obtain ⟨i, hi, hk⟩ := h.pos k h1 h2
  have hl : i < q.priorities.length := by rw [h.prLen]; exact h.item_lt hk
  simp only [prioAt, heapAt, hi]
  rw [List.getElem?_eq_getElem hl]
  rfl

theorem swapItems_spec {q : PQ P} {N : Nat} {K : Nat → P} (h : Bij q N) (hK : Keys q N K) {i j : Nat} (hi : 1 ≤ i) (hi' : i ≤ N) (hj : 1 ≤ j) (hj' : j ≤ N) :
    ∃ q', q.swapItems i j = some q' ∧ Bij q' N ∧ Keys q' N (swapK K i j) ∧ Same q q' ∧ (∀ k, k ≠ i → k ≠ j → q'.heap[k]? = q.heap[k]?) ∧
      q'.heap[j]? = q.heap[i]? := by
  obtain ⟨a, ha, ha'⟩ := h.pos i hi hi'
  obtain ⟨b, hb, hb'⟩ := h.pos j hj hj'
  have hil : i < q.heap.length := by rw [h.heapLen]; have := h.bound; omega
  have hjl : j < q.heap.length := by rw [h.heapLen]; have := h.bound; omega
  have hal : a < q.indices.length := by rw [h.indLen]; exact h.item_lt ha'
  have hbl : b < q.indices.length := by rw [h.indLen]; exact h.item_lt hb'
  -- the new heap
  have hheap : ∀ k, ((q.heap.set i (some b)).set j (some a))[k]? = if k = i then some (some b) else if k = j then some (some a) else q.heap[k]? := by
    intro k
    by_cases hkj : k = j
    · subst hkj
      rw [List.getElem?_set_self (by simpa using hjl)]
      by_cases hki : k = i
      · subst hki
        rw [if_pos rfl]
        rw [ha] at hb
        exact hb
      · rw [if_neg hki, if_pos rfl]
    · rw [List.getElem?_set_ne (Ne.symm hkj)]
      by_cases hki : k = i
      · subst hki; rw [if_pos rfl, List.getElem?_set_self hil]
      · rw [if_neg hki, if_neg hkj, List.getElem?_set_ne (Ne.symm hki)]
  have hind : ∀ x : Nat, ((q.indices.set b (some i)).set a (some j))[x]? = if x = a then some (some j) else if x = b then some (some i) else q.indices[x]? := by
    intro x
    by_cases hxa : x = a
    · subst hxa; rw [List.getElem?_set_self (by simpa using hal), if_pos rfl]
    · rw [List.getElem?_set_ne (Ne.symm hxa), if_neg hxa]
      by_cases hxb : x = b
      · subst hxb; rw [List.getElem?_set_self hbl, if_pos rfl]
      · rw [if_neg hxb, List.getElem?_set_ne (Ne.symm hxb)]
  have hij : a = b → i = j := by
    intro hab
    subst hab
    rw [ha'] at hb'
    simpa using hb'
  have hne : ∀ k x, 1 ≤ k → k ≤ N → q.heap[k]? = some (some x) → (k ≠ i → x ≠ a) ∧ (k ≠ j → x ≠ b) := by
    intro k x h1 h2 hk
    obtain ⟨y, hy, hy'⟩ := h.pos k h1 h2
    rw [hk] at hy
    simp only [Option.some.injEq] at hy
    subst hy
    constructor
    · intro hki hxa
      subst hxa
      rw [ha'] at hy'
      simp only [Option.some.injEq] at hy'
      exact hki hy'.symm
    · intro hkj hxb
      subst hxb
      rw [hb'] at hy'
      simp only [Option.some.injEq] at hy'
      exact hkj hy'.symm
  have hjv : ((q.heap.set i (some b)).set j (some a))[j]? = some (some a) := by
    rw [List.getElem?_set_self (by simpa using hjl)]
  have hiv : ((q.heap.set i (some b)).set j (some a))[i]? = some (some b) := by rw [hheap, if_pos rfl]
  refine ⟨⟨q.maxSize, q.cur, (q.heap.set i (some b)).set j (some a), (q.indices.set b (some i)).set a (some j), q.priorities⟩, ?_, ?_, ?_, ?_, ?_, by rw [hjv, ha]⟩
  · unfold swapItems
    simp only [ha, hb, hiv, hjv, setAt_of_lt _ hbl, setAt_of_lt (l := q.indices.set b (some i)) _ (by simpa using hal)]
  · refine ⟨by simpa using h.heapLen, by simpa using h.indLen, h.prLen, h.bound, ?_, ?_, ?_⟩
    · rw [hheap, if_neg (by omega), if_neg (by omega)]
      exact h.zero
    · intro k h1 h2
      simp only [hheap, hind]
      by_cases hki : k = i
      · subst hki
        refine ⟨b, by rw [if_pos rfl], ?_⟩
        by_cases hab : b = a
        · rw [if_pos hab]
          rw [hij hab.symm]
        · rw [if_neg hab, if_pos rfl]
      · by_cases hkj : k = j
        · subst hkj
          exact ⟨a, by rw [if_neg hki, if_pos rfl], by rw [if_pos rfl]⟩
        · obtain ⟨x, hx, hx'⟩ := h.pos k h1 h2
          obtain ⟨n1, n2⟩ := hne k x h1 h2 hx
          exact ⟨x, by rw [if_neg hki, if_neg hkj]; exact hx, by rw [if_neg (n1 hki), if_neg (n2 hkj)]; exact hx'⟩
    · intro x k hx
      simp only [hind] at hx
      simp only [hheap]
      by_cases hxa : x = a
      · subst hxa
        rw [if_pos rfl] at hx
        simp only [Option.some.injEq] at hx
        subst hx
        refine ⟨hj, hj', ?_⟩
        by_cases hji : j = i
        · rw [if_pos hji]
          subst hji
          rw [ha] at hb
          exact hb.symm
        · rw [if_neg hji, if_pos rfl]
      · rw [if_neg hxa] at hx
        by_cases hxb : x = b
        · subst hxb
          rw [if_pos rfl] at hx
          simp only [Option.some.injEq] at hx
          subst hx
          exact ⟨hi, hi', by rw [if_pos rfl]⟩
        · rw [if_neg hxb] at hx
          obtain ⟨h1, h2, h3⟩ := h.inv x k hx
          refine ⟨h1, h2, ?_⟩
          have hki : k ≠ i := by
            intro hki; subst hki
            rw [ha] at h3
            simp only [Option.some.injEq] at h3
            exact hxa h3.symm
          have hkj : k ≠ j := by
            intro hkj; subst hkj
            rw [hb] at h3
            simp only [Option.some.injEq] at h3
            exact hxb h3.symm
          rw [if_neg hki, if_neg hkj]
          exact h3
  · intro k h1 h2
    simp only [prioAt, heapAt, hheap, swapK]
    have e1 := hK i hi hi'
    have e2 := hK j hj hj'
    simp only [prioAt, heapAt, ha] at e1
    simp only [prioAt, heapAt, hb] at e2
    by_cases hki : k = i
    · rw [if_pos hki, if_pos hki]; exact e2
    · rw [if_neg hki, if_neg hki]
      by_cases hkj : k = j
      · rw [if_pos hkj, if_pos hkj]; exact e1
      · rw [if_neg hkj, if_neg hkj]
        exact hK k h1 h2
  · refine ⟨rfl, rfl, rfl, ?_⟩
    intro x
    simp only [hind]
    by_cases hxa : x = a
    · subst hxa; simp [ha']
    · rw [if_neg hxa]
      by_cases hxb : x = b
      · subst hxb; simp [hb']
      · rw [if_neg hxb]
  · intro k h1 h2
    rw [hheap, if_neg h1, if_neg h2]

/-! ### Order -/

/-- Position `k` is not smaller than its parent. -/
def OkAt (lt : P → P → Bool) (K : Nat → P) (k : Nat) : Prop := lt (K k) (K (k / 2)) = false

def HeapOrd (lt : P → P → Bool) (c : Nat) (K : Nat → P) : Prop := ∀ k, 2 ≤ k → k ≤ c → OkAt lt K k

/-- A heap but for position `k`, which may be too small. -/
structure Up (lt : P → P → Bool) (c : Nat) (K : Nat → P) (k : Nat) : Prop where
  rest : ∀ j, 2 ≤ j → j ≤ c → j ≠ k → OkAt lt K j
  grand : ∀ j, 2 ≤ j → j ≤ c → j / 2 = k → 2 ≤ k → lt (K j) (K (k / 2)) = false

/-- A heap but for position `k`, which may be too large. -/
structure Down (lt : P → P → Bool) (c : Nat) (K : Nat → P) (k : Nat) : Prop where
  rest : ∀ j, 2 ≤ j → j ≤ c → j / 2 ≠ k → OkAt lt K j
  grand : ∀ j, 2 ≤ j → j ≤ c → j / 2 = k → 2 ≤ k → lt (K j) (K (k / 2)) = false

theorem HeapOrd.grand {lt : P → P → Bool} (hlt : StrictWeak lt) {c : Nat} {K : Nat → P} (h : HeapOrd lt c K) {j k : Nat} (h1 : 2 ≤ j) (h2 : j ≤ c)
    (hjk : j / 2 = k) (hk : 2 ≤ k) : lt (K j) (K (k / 2)) = false := by
  have a := h j h1 h2
  have b := h k hk (by omega)
  unfold OkAt at a b
  rw [hjk] at a
  exact hlt.le_trans b a

theorem HeapOrd.up {lt : P → P → Bool} (hlt : StrictWeak lt) {c : Nat} {K : Nat → P} (h : HeapOrd lt c K) (k : Nat) : Up lt c K k :=
  ⟨fun j h1 h2 _ => h j h1 h2, fun _ h1 h2 h3 h4 => h.grand hlt h1 h2 h3 h4⟩

theorem HeapOrd.down {lt : P → P → Bool} (hlt : StrictWeak lt) {c : Nat} {K : Nat → P} (h : HeapOrd lt c K) (k : Nat) : Down lt c K k :=
  ⟨fun j h1 h2 _ => h j h1 h2, fun _ h1 h2 h3 h4 => h.grand hlt h1 h2 h3 h4⟩

theorem up_swap {lt : P → P → Bool} (hlt : StrictWeak lt) {c : Nat} {K : Nat → P} {k : Nat} (h : Up lt c K k) (hk : 2 ≤ k) (hkc : k ≤ c)
    (hbad : lt (K k) (K (k / 2)) = true) : Up lt c (swapK K k (k / 2)) (k / 2) := by
  have hne : k ≠ k / 2 := by omega
  refine ⟨?_, ?_⟩
  · intro j h1 h2 hj
    unfold OkAt swapK
    by_cases hjk : j = k
    · subst hjk
      rw [if_pos rfl, if_neg (Ne.symm hne), if_pos rfl]
      exact hlt.asymm hbad
    · rw [if_neg hjk, if_neg hj]
      by_cases hj2 : j / 2 = k
      · rw [if_pos hj2]
        exact h.grand j h1 h2 hj2 hk
      · rw [if_neg hj2]
        by_cases hj3 : j / 2 = k / 2
        · rw [if_pos hj3]
          have a := h.rest j h1 h2 hjk
          unfold OkAt at a
          rw [hj3] at a
          exact hlt.le_trans (hlt.asymm hbad) a
        · rw [if_neg hj3]
          exact h.rest j h1 h2 hjk
  · intro j h1 h2 hj2 hk2
    unfold swapK
    have hk4 : k / 2 / 2 ≠ k := by omega
    have hk5 : k / 2 / 2 ≠ k / 2 := by omega
    rw [if_neg hk4, if_neg hk5]
    have hp := h.rest (k / 2) hk2 (by omega) (by omega)
    unfold OkAt at hp
    by_cases hjk : j = k
    · subst hjk
      rw [if_pos rfl]
      exact hp
    · rw [if_neg hjk, if_neg (by omega)]
      have a := h.rest j h1 h2 hjk
      unfold OkAt at a
      rw [hj2] at a
      exact hlt.le_trans hp a

theorem bubbleUp_spec {lt : P → P → Bool} (hlt : StrictWeak lt) {N c : Nat} : ∀ (n : Nat) (q : PQ P) (K : Nat → P) (k : Nat), Bij q N → Keys q N K →
    k ≤ c → c ≤ N → k < n → Up lt c K k → ∃ q' K', bubbleUp lt n q k = some q' ∧ Bij q' N ∧ Keys q' N K' ∧ HeapOrd lt c K' ∧ Same q q' ∧
      (∀ j, c < j → q'.heap[j]? = q.heap[j]?)
  | 0, _, _, k, _, _, _, _, hn, _ => by omega
  | n + 1, q, K, k, hb, hK, hk, hc, hn, hu => by
    unfold bubbleUp
    by_cases h1 : k > 1
    · rw [if_pos h1, hK (k / 2) (by omega) (by omega), hK k (by omega) (by omega)]
      simp only [gt_eq hlt]
      by_cases hbad : lt (K k) (K (k / 2)) = true
      · rw [if_pos hbad]
        obtain ⟨q1, e1, e2, e3, e4, e5, _⟩ := swapItems_spec hb hK (i := k) (j := k / 2) (by omega) (by omega) (by omega) (by omega)
        rw [e1]
        simp only
        obtain ⟨q2, K2, f1, f2, f3, f4, f5, f6⟩ := bubbleUp_spec hlt n q1 _ (k / 2) e2 e3 (by omega) hc (by omega) (up_swap hlt hu (by omega) hk hbad)
        refine ⟨q2, K2, f1, f2, f3, f4, e4.trans f5, ?_⟩
        intro j hj
        rw [f6 j hj, e5 j (by omega) (by omega)]
      · rw [if_neg hbad]
        refine ⟨q, K, rfl, hb, hK, ?_, Same.refl q, fun _ _ => rfl⟩
        intro j h2 h3
        by_cases hj : j = k
        · subst hj
          unfold OkAt
          simpa using hbad
        · exact hu.rest j h2 h3 hj
    · rw [if_neg h1]
      exact ⟨q, K, rfl, hb, hK, fun j h2 h3 => hu.rest j h2 h3 (by omega), Same.refl q, fun _ _ => rfl⟩

theorem child_spec {lt : P → P → Bool} (hlt : StrictWeak lt) {q : PQ P} {N : Nat} {K : Nat → P} (hK : Keys q N K) (hc : q.cur ≤ N) {k : Nat} (h1 : 1 ≤ k)
    (hk : 2 * k ≤ q.cur) : ∃ j, q.child lt k = some j ∧ 2 ≤ j ∧ j ≤ q.cur ∧ j / 2 = k ∧ ∀ j', 2 ≤ j' → j' ≤ q.cur → j' / 2 = k → lt (K j') (K j) = false := by
  unfold child
  by_cases h2 : 2 * k < q.cur
  · rw [if_pos h2, hK (2 * k) (by omega) (by omega), hK (2 * k + 1) (by omega) (by omega)]
    simp only [gt_eq hlt]
    by_cases h3 : lt (K (2 * k + 1)) (K (2 * k)) = true
    · rw [if_pos h3]
      refine ⟨_, rfl, by omega, by omega, by omega, ?_⟩
      intro j' _ _ hj'
      rcases (by omega : j' = 2 * k ∨ j' = 2 * k + 1) with h | h
      · rw [h]; exact hlt.asymm h3
      · rw [h]; exact hlt.irrefl _
    · rw [if_neg h3]
      refine ⟨_, rfl, by omega, by omega, by omega, ?_⟩
      intro j' _ _ hj'
      rcases (by omega : j' = 2 * k ∨ j' = 2 * k + 1) with h | h
      · rw [h]; exact hlt.irrefl _
      · rw [h]; simpa using h3
  · rw [if_neg h2]
    refine ⟨_, rfl, by omega, hk, by omega, ?_⟩
    intro j' _ _ hj'
    rw [(by omega : j' = 2 * k)]
    exact hlt.irrefl _

theorem down_swap {lt : P → P → Bool} {c : Nat} {K : Nat → P} {k j : Nat} (hlt : StrictWeak lt) (h : Down lt c K k) (hk : 1 ≤ k) (hj1 : 2 ≤ j) (hj : j ≤ c) (hjk : j / 2 = k)
    (hmin : ∀ j', 2 ≤ j' → j' ≤ c → j' / 2 = k → lt (K j') (K j) = false) (hbad : lt (K j) (K k) = true) : Down lt c (swapK K k j) j := by
  refine ⟨?_, ?_⟩
  · intro i h1 h2 hi
    unfold OkAt swapK
    by_cases hik : i = k
    · subst hik
      rw [if_pos rfl, if_neg (by omega), if_neg (by omega)]
      exact h.grand j hj1 hj hjk h1
    · rw [if_neg hik, if_neg hi]
      by_cases hij : i = j
      · subst hij
        rw [if_pos rfl, if_pos hjk]
        exact hlt.asymm hbad
      · rw [if_neg hij]
        by_cases hi2 : i / 2 = k
        · rw [if_pos hi2]
          exact hmin i h1 h2 hi2
        · rw [if_neg hi2]
          exact h.rest i h1 h2 hi2
  · intro i h1 h2 hi _
    unfold swapK
    rw [if_neg (by omega), if_neg (by omega), if_pos hjk]
    have a := h.rest i h1 h2 (by omega)
    unfold OkAt at a
    rw [hi] at a
    exact a

theorem bubbleDown_spec {lt : P → P → Bool} (hlt : StrictWeak lt) {N : Nat} : ∀ (n : Nat) (q : PQ P) (K : Nat → P) (k : Nat), Bij q N → Keys q N K →
    q.cur ≤ N → 1 ≤ k → q.cur < k + n → 0 < n → Down lt q.cur K k → ∃ q' K', bubbleDown lt n q k = some q' ∧ Bij q' N ∧ Keys q' N K' ∧ HeapOrd lt q.cur K' ∧
      Same q q' ∧ (∀ j, q.cur < j → q'.heap[j]? = q.heap[j]?)
  | 0, _, _, k, _, _, _, _, _, hn, _ => by omega
  | n + 1, q, K, k, hb, hK, hc, h1, hn, _, hd => by
    unfold bubbleDown
    by_cases h2 : 2 * k ≤ q.cur
    · rw [if_pos h2]
      obtain ⟨j, e1, e2, e3, e4, e5⟩ := child_spec hlt hK hc h1 h2
      rw [e1]
      simp only
      rw [hK k h1 (by omega), hK j (by omega) (by omega)]
      by_cases hbad : lt (K j) (K k) = true
      · simp only
        rw [if_neg (show ¬ leqt lt (K k) (K j) = true by simp [leqt, hbad])]
        obtain ⟨q1, f1, f2, f3, f4, f5, _⟩ := swapItems_spec hb hK (i := k) (j := j) h1 (by omega) (by omega) (by omega)
        rw [f1]
        simp only
        have hcur := f4.cur
        obtain ⟨q2, K2, g1, g2, g3, g4, g5, g6⟩ := bubbleDown_spec hlt n q1 _ j f2 f3 (by rw [hcur]; exact hc) (by omega) (by rw [hcur]; omega) (by omega)
          (by rw [hcur]; exact down_swap hlt hd h1 e2 e3 e4 e5 hbad)
        rw [hcur] at g4 g6
        refine ⟨q2, K2, g1, g2, g3, g4, f4.trans g5, ?_⟩
        intro i hi
        rw [g6 i hi, f5 i (by omega) (by omega)]
      · rw [Bool.not_eq_true] at hbad
        simp only
        rw [if_pos (show leqt lt (K k) (K j) = true by simp [leqt, hbad])]
        refine ⟨q, K, rfl, hb, hK, ?_, Same.refl q, fun _ _ => rfl⟩
        intro i h3 h4
        by_cases hi : i / 2 = k
        · unfold OkAt
          rw [hi]
          exact hlt.le_trans hbad (e5 i h3 h4 hi)
        · exact hd.rest i h3 h4 hi
    · rw [if_neg h2]
      exact ⟨q, K, rfl, hb, hK, fun j h3 h4 => hd.rest j h3 h4 (by omega), Same.refl q, fun _ _ => rfl⟩

/-! ### Content -/

/-- What contains() and priority() say. -/
def content (q : PQ P) : PMap P := fun i =>
  match q.contains i with
  | some true => q.priority i
  | _ => none

theorem content_in {q : PQ P} {i k : Nat} (h : q.indices[i]? = some (some k)) : q.content i = q.priorities[i]? := by
  simp [content, contains, h, priority]

theorem content_out {q : PQ P} {i : Nat} (h : ¬ ∃ k, q.indices[i]? = some (some k)) : q.content i = none := by
  unfold content contains
  match hi : q.indices[i]? with
  | none => simp
  | some none => simp
  | some (some k) => exact absurd ⟨k, hi⟩ h

theorem content_same {q q' : PQ P} (h : Same q q') : q'.content = q.content := by
  funext i
  by_cases hi : ∃ k, q.indices[i]? = some (some k)
  · obtain ⟨k', hk'⟩ := (h.items i).mpr hi
    obtain ⟨k, hk⟩ := hi
    rw [content_in hk', content_in hk, h.priorities]
  · rw [content_out hi, content_out (fun h' => hi ((h.items i).mp h'))]

theorem Bij.content_some {q : PQ P} {N : Nat} (h : Bij q N) {i : Nat} : (∃ p, q.content i = some p) ↔ ∃ k, q.indices[i]? = some (some k) := by
  constructor
  · rintro ⟨p, hp⟩
    by_contra hi
    rw [content_out hi] at hp
    simp at hp
  · rintro ⟨k, hk⟩
    rw [content_in hk]
    have : i < q.priorities.length := by rw [h.prLen]; exact h.item_lt hk
    exact ⟨_, List.getElem?_eq_getElem this⟩

theorem Bij.size_eq {q : PQ P} {N : Nat} (h : Bij q N) : PMap.size q.maxSize q.content = N := by
  unfold PMap.size
  have hmem : ∀ i, i ∈ (List.range (q.maxSize + 1)).filter (fun i => (q.content i).isSome) ↔ ∃ k, q.indices[i]? = some (some k) := by
    intro i
    simp only [List.mem_filter, List.mem_range]
    rw [Option.isSome_iff_exists, h.content_some]
    constructor
    · exact fun h' => h'.2
    · rintro ⟨k, hk⟩
      exact ⟨h.item_lt hk, k, hk⟩
  have hperm : (((List.range (q.maxSize + 1)).filter (fun i => (q.content i).isSome)).map (fun i => ((q.indices[i]?).getD none).getD 0)).Perm (List.range' 1 N) := by
    rw [List.perm_ext_iff_of_nodup]
    · intro k
      simp only [List.mem_map, hmem]
      constructor
      · rintro ⟨i, ⟨k', hk'⟩, rfl⟩
        obtain ⟨h1, h2, _⟩ := h.inv i k' hk'
        rw [hk']
        simp only [Option.getD_some, List.mem_range'_1]
        omega
      · intro hk
        simp only [List.mem_range'_1] at hk
        obtain ⟨i, h1, h2⟩ := h.pos k hk.1 (by omega)
        exact ⟨i, ⟨k, h2⟩, by rw [h2]; rfl⟩
    · apply List.Nodup.map_on
      · intro i hi j hj hij
        obtain ⟨k, hk⟩ := (hmem i).mp hi
        obtain ⟨k', hk'⟩ := (hmem j).mp hj
        rw [hk, hk'] at hij
        simp only [Option.getD_some] at hij
        subst hij
        have a := (h.inv i k hk).2.2
        have b := (h.inv j k hk').2.2
        rw [a] at b
        simpa using b
      · exact List.Nodup.filter _ List.nodup_range
    · exact List.nodup_range'
  have := hperm.length_eq
  simpa using this

/-- Invariant. -/
structure Inv (lt : P → P → Bool) (q : PQ P) : Prop where
  bij : Bij q q.cur
  ord : ∃ K, Keys q q.cur K ∧ HeapOrd lt q.cur K

theorem inv_new (lt : P → P → Bool) (p0 : P) (n : Nat) : Inv lt (new p0 n) := by
  refine ⟨⟨by simp [new], by simp [new], by simp [new], by simp [new], by simp [new], by simp [new]; omega, ?_⟩, fun _ => p0, ?_, ?_⟩
  · intro i k h
    simp only [new, List.getElem?_replicate] at h
    split at h <;> simp at h
  · intro k h1 h2
    simp only [new] at h2
    omega
  · intro k h1 h2
    simp only [new] at h2
    omega

theorem content_new (p0 : P) (n : Nat) : (new p0 n).content = fun _ => none := by
  funext i
  apply content_out
  rintro ⟨k, h⟩
  simp only [new, List.getElem?_replicate] at h
  split at h <;> simp at h

/-- The root is minimal. -/
theorem root_min {lt : P → P → Bool} (hlt : StrictWeak lt) {c : Nat} {K : Nat → P} (h : HeapOrd lt c K) : ∀ k, 1 ≤ k → k ≤ c → lt (K k) (K 1) = false := by
  intro k
  induction k using Nat.strongRecOn with
  | _ k ih =>
    intro h1 h2
    by_cases hk : k = 1
    · subst hk; exact hlt.irrefl _
    · exact hlt.le_trans (ih (k / 2) (by omega) (by omega) (by omega)) (h k (by omega) h2)

theorem Inv.top {lt : P → P → Bool} (hlt : StrictWeak lt) {q : PQ P} (h : Inv lt q) (hc : 1 ≤ q.cur) :
    ∃ i p, q.top = some (some i) ∧ q.topPriority = some p ∧ q.content.IsTop lt i p ∧ q.indices[i]? = some (some 1) := by
  obtain ⟨K, hK, hO⟩ := h.ord
  obtain ⟨i, h1, h2⟩ := h.bij.pos 1 (by omega) hc
  have hp := hK 1 (by omega) hc
  refine ⟨i, K 1, h1, hp, ⟨?_, ?_⟩, h2⟩
  · rw [content_in h2]
    simpa [prioAt, heapAt, h1] using hp
  · intro j p hj
    obtain ⟨k, hk⟩ := (h.bij.content_some (i := j)).mp ⟨p, hj⟩
    obtain ⟨a, b, c⟩ := h.bij.inv j k hk
    have hpk := hK k a b
    rw [content_in hk] at hj
    simp only [prioAt, heapAt, c, hj, Option.some.injEq] at hpk
    rw [hpk]
    exact root_min hlt hO k a b

/-! ### Calls -/

theorem inv_of_same {lt : P → P → Bool} {q q' : PQ P} {N : Nat} {K : Nat → P} (hs : Same q q') (hb : Bij q' N) (hN : q.cur = N) (hK : Keys q' N K) (hO : HeapOrd lt N K) :
    Inv lt q' := by
  have : q'.cur = N := hs.cur.trans hN
  exact ⟨by rw [this]; exact hb, K, by rw [this]; exact hK, by rw [this]; exact hO⟩

theorem keys_set {q : PQ P} {N : Nat} {K : Nat → P} (hb : Bij q N) (hK : Keys q N K) {i ind : Nat} (hi : q.indices[i]? = some (some ind)) (p : P) :
    Keys (⟨q.maxSize, q.cur, q.heap, q.indices, q.priorities.set i p⟩ : PQ P) N (fun k => if k = ind then p else K k) := by
  intro k h1 h2
  obtain ⟨x, hx, hx'⟩ := hb.pos k h1 h2
  have := hK k h1 h2
  simp only [prioAt, heapAt, hx] at this ⊢
  by_cases hk : k = ind
  · subst hk
    have h3 := (hb.inv i k hi).2.2
    rw [hx] at h3
    simp only [Option.some.injEq] at h3
    subst h3
    rw [if_pos rfl, List.getElem?_set_self (by rw [hb.prLen]; exact hb.item_lt hi)]
  · have hxi : x ≠ i := by
      intro h; subst h
      rw [hi] at hx'
      simp only [Option.some.injEq] at hx'
      exact hk hx'.symm
    rw [if_neg hk, List.getElem?_set_ne (Ne.symm hxi)]
    exact this

theorem content_set {q : PQ P} {N : Nat} (hb : Bij q N) {i ind : Nat} (hi : q.indices[i]? = some (some ind)) (p : P) :
    (⟨q.maxSize, q.cur, q.heap, q.indices, q.priorities.set i p⟩ : PQ P).content = q.content.update i (some p) := by
  funext j
  unfold PMap.update
  by_cases hj : j = i
  · subst hj
    rw [if_pos rfl, content_in (q := ⟨q.maxSize, q.cur, q.heap, q.indices, q.priorities.set j p⟩) hi]
    simp only
    rw [List.getElem?_set_self (by rw [hb.prLen]; exact hb.item_lt hi)]
  · rw [if_neg hj]
    by_cases hjin : ∃ k, q.indices[j]? = some (some k)
    · obtain ⟨k, hk⟩ := hjin
      rw [content_in hk, content_in (q := ⟨q.maxSize, q.cur, q.heap, q.indices, q.priorities.set i p⟩) hk]
      simp only
      rw [List.getElem?_set_ne (Ne.symm hj)]
    · rw [content_out hjin, content_out (q := ⟨q.maxSize, q.cur, q.heap, q.indices, q.priorities.set i p⟩) hjin]

theorem change_spec {lt : P → P → Bool} (hlt : StrictWeak lt) {q : PQ P} (h : Inv lt q) {i : Nat} {old : P} (hi : q.content i = some old) (p : P) :
    ∃ q', q.changePriority lt i p = some q' ∧ Inv lt q' ∧ q'.maxSize = q.maxSize ∧
      (q'.content = q.content.update i (some p) ∨ ∃ r, q.content i = some r ∧ Equivalent lt p r ∧ q'.content = q.content) := by
  obtain ⟨K, hK, hO⟩ := h.ord
  obtain ⟨ind, hind⟩ := (h.bij.content_some (i := i)).mp ⟨old, hi⟩
  obtain ⟨a1, a2, a3⟩ := h.bij.inv i ind hind
  have hold : q.priorities[i]? = some old := by rw [← content_in hind]; exact hi
  have hKi : K ind = old := by
    have := hK ind a1 a2
    simp only [prioAt, heapAt, a3, hold, Option.some.injEq] at this
    exact this.symm
  have hb1 : Bij (⟨q.maxSize, q.cur, q.heap, q.indices, q.priorities.set i p⟩ : PQ P) q.cur :=
    ⟨h.bij.heapLen, h.bij.indLen, by simpa using h.bij.prLen, h.bij.bound, h.bij.zero, h.bij.pos, h.bij.inv⟩
  have hK1 := keys_set h.bij hK hind p
  have hcont := content_set h.bij hind p
  have hgr : ∀ j, 2 ≤ j → j ≤ q.cur → j / 2 = ind → 2 ≤ ind → lt (if j = ind then p else K j) (if ind / 2 = ind then p else K (ind / 2)) = false := by
    intro j h1 h2 h3 h4
    rw [if_neg (by omega), if_neg (by omega)]
    exact hO.grand hlt h1 h2 h3 h4
  unfold changePriority
  simp only [hold, hind, gt_eq hlt]
  by_cases hgt : lt old p = true
  · rw [if_pos hgt]
    obtain ⟨q', K', e1, e2, e3, e4, e5, _⟩ := bubbleDown_spec hlt (q.cur + 2) _ _ ind hb1 hK1 (Nat.le_refl _) a1 (by simp only; omega) (by omega) (by
      refine ⟨?_, hgr⟩
      intro j h1 h2 h3
      simp only at h2
      unfold OkAt
      simp only
      rw [if_neg h3]
      by_cases hj : j = ind
      · rw [if_pos hj]
        subst hj
        have := hO j h1 h2
        unfold OkAt at this
        rw [hKi] at this
        exact hlt.le_trans this (hlt.asymm hgt)
      · rw [if_neg hj]
        exact hO j h1 h2)
    exact ⟨q', e1, inv_of_same e5 e2 rfl e3 e4, e5.maxSize, Or.inl (by rw [content_same e5, hcont])⟩
  · rw [if_neg hgt]
    by_cases hl : lt p old = true
    · rw [if_pos hl]
      obtain ⟨q', K', e1, e2, e3, e4, e5, _⟩ := bubbleUp_spec hlt (c := q.cur) (ind + 1) _ _ ind hb1 hK1 a2 (Nat.le_refl _) (by omega) (by
        refine ⟨?_, hgr⟩
        intro j h1 h2 h3
        unfold OkAt
        simp only
        rw [if_neg h3]
        by_cases hj : j / 2 = ind
        · rw [if_pos hj]
          have := hO j h1 h2
          unfold OkAt at this
          rw [hj, hKi] at this
          exact hlt.le_trans (hlt.asymm hl) this
        · rw [if_neg hj]
          exact hO j h1 h2)
      exact ⟨q', e1, inv_of_same e5 e2 rfl e3 e4, e5.maxSize, Or.inl (by rw [content_same e5, hcont])⟩
    · rw [if_neg hl]
      exact ⟨q, rfl, h, rfl, Or.inr ⟨old, hi, ⟨by simpa using hl, by simpa using hgt⟩, rfl⟩⟩

theorem push_new {lt : P → P → Bool} (hlt : StrictWeak lt) {q : PQ P} (h : Inv lt q) {i : Nat} (hi : q.content i = none) (hil : i ≤ q.maxSize)
    (hc : q.cur < q.maxSize) (p : P) :
    ∃ q', q.push lt i p = some q' ∧ Inv lt q' ∧ q'.maxSize = q.maxSize ∧ q'.content = q.content.update i (some p) := by
  obtain ⟨K, hK, hO⟩ := h.ord
  have hno : ¬ ∃ k, q.indices[i]? = some (some k) := by
    intro h'
    obtain ⟨p, hp⟩ := h.bij.content_some.mpr h'
    rw [hi] at hp
    simp at hp
  have hlt' : i < q.indices.length := by rw [h.bij.indLen]; omega
  have hhl : q.cur + 1 < q.heap.length := by rw [h.bij.heapLen]; omega
  have hpl : i < q.priorities.length := by rw [h.bij.prLen]; omega
  have hind : q.indices[i]? = some none := by
    match he : q.indices[i]? with
    | none => rw [List.getElem?_eq_none_iff] at he; omega
    | some none => rfl
    | some (some k) => exact absurd ⟨k, he⟩ hno
  have hcon : q.contains i = some false := by simp [contains, hind]
  have hne : ∀ k x, 1 ≤ k → k ≤ q.cur → q.heap[k]? = some (some x) → x ≠ i := by
    intro k x h1 h2 hx hxi
    subst hxi
    obtain ⟨y, hy, hy'⟩ := h.bij.pos k h1 h2
    rw [hx] at hy
    simp only [Option.some.injEq] at hy
    subst hy
    exact hno ⟨k, hy'⟩
  unfold push
  simp only [hcon, setAt_of_lt _ hlt', setAt_of_lt _ hhl, setAt_of_lt _ hpl]
  have hb1 : Bij (⟨q.maxSize, q.cur + 1, q.heap.set (q.cur + 1) (some i), q.indices.set i (some (q.cur + 1)), q.priorities.set i p⟩ : PQ P) (q.cur + 1) := by
    refine ⟨by simpa using h.bij.heapLen, by simpa using h.bij.indLen, by simpa using h.bij.prLen, hc, ?_, ?_, ?_⟩
    · simp only
      rw [List.getElem?_set_ne (by omega)]
      exact h.bij.zero
    · intro k h1 h2
      by_cases hk : k = q.cur + 1
      · subst hk
        exact ⟨i, by simp only; rw [List.getElem?_set_self hhl], by simp only; rw [List.getElem?_set_self hlt']⟩
      · obtain ⟨x, hx, hx'⟩ := h.bij.pos k h1 (by omega)
        refine ⟨x, ?_, ?_⟩
        · simp only; rw [List.getElem?_set_ne (Ne.symm hk)]; exact hx
        · simp only; rw [List.getElem?_set_ne (Ne.symm (hne k x h1 (by omega) hx))]; exact hx'
    · intro x k hx
      simp only at hx ⊢
      by_cases hxi : x = i
      · subst hxi
        rw [List.getElem?_set_self hlt'] at hx
        simp only [Option.some.injEq] at hx
        subst hx
        exact ⟨by omega, by omega, by rw [List.getElem?_set_self hhl]⟩
      · rw [List.getElem?_set_ne (Ne.symm hxi)] at hx
        obtain ⟨h1, h2, h3⟩ := h.bij.inv x k hx
        exact ⟨h1, by omega, by rw [List.getElem?_set_ne (by omega)]; exact h3⟩
  have hK1 : Keys (⟨q.maxSize, q.cur + 1, q.heap.set (q.cur + 1) (some i), q.indices.set i (some (q.cur + 1)), q.priorities.set i p⟩ : PQ P) (q.cur + 1)
      (fun k => if k = q.cur + 1 then p else K k) := by
    intro k h1 h2
    by_cases hk : k = q.cur + 1
    · subst hk
      simp only [prioAt, heapAt, if_true]
      rw [List.getElem?_set_self hhl]
      simp only
      rw [List.getElem?_set_self hpl]
    · obtain ⟨x, hx, hx'⟩ := h.bij.pos k h1 (by omega)
      have := hK k h1 (by omega)
      simp only [prioAt, heapAt, hx] at this ⊢
      rw [List.getElem?_set_ne (Ne.symm hk), hx, if_neg hk]
      simp only
      rw [List.getElem?_set_ne (Ne.symm (hne k x h1 (by omega) hx))]
      exact this
  obtain ⟨q', K', e1, e2, e3, e4, e5, _⟩ := bubbleUp_spec hlt (c := q.cur + 1) (q.cur + 2) _ _ (q.cur + 1) hb1 hK1 (Nat.le_refl _) (Nat.le_refl _) (by omega) (by
    refine ⟨?_, ?_⟩
    · intro j h1 h2 h3
      unfold OkAt
      simp only
      rw [if_neg h3, if_neg (by omega)]
      exact hO j h1 (by omega)
    · intro j h1 h2 h3 h4
      omega)
  refine ⟨q', e1, inv_of_same e5 e2 rfl e3 e4, e5.maxSize, ?_⟩
  rw [content_same e5]
  funext j
  unfold PMap.update
  by_cases hj : j = i
  · subst hj
    rw [if_pos rfl, content_in (q := ⟨q.maxSize, q.cur + 1, q.heap.set (q.cur + 1) (some j), q.indices.set j (some (q.cur + 1)), q.priorities.set j p⟩) (k := q.cur + 1)
      (by simp only; rw [List.getElem?_set_self hlt'])]
    simp only
    rw [List.getElem?_set_self hpl]
  · rw [if_neg hj]
    have hjs : (q.indices.set i (some (q.cur + 1)))[j]? = q.indices[j]? := List.getElem?_set_ne (Ne.symm hj)
    by_cases hjin : ∃ k, q.indices[j]? = some (some k)
    · obtain ⟨k, hk⟩ := hjin
      rw [content_in hk, content_in (q := ⟨q.maxSize, q.cur + 1, q.heap.set (q.cur + 1) (some i), q.indices.set i (some (q.cur + 1)), q.priorities.set i p⟩) (k := k)
        (by simp only [hjs]; exact hk)]
      simp only
      rw [List.getElem?_set_ne (Ne.symm hj)]
    · rw [content_out hjin, content_out (q := ⟨q.maxSize, q.cur + 1, q.heap.set (q.cur + 1) (some i), q.indices.set i (some (q.cur + 1)), q.priorities.set i p⟩)]
      simp only [hjs]
      exact hjin

/-- Removing the item at position `N`. -/
theorem erase_last {lt : P → P → Bool} {q : PQ P} {N x : Nat} {K : Nat → P} (hb : Bij q (N + 1)) (hK : Keys q (N + 1) K) (hO : HeapOrd lt N K) (hcur : q.cur = N)
    (hx : q.heap[N + 1]? = some (some x)) {heap' : List (Option Nat)} (hl : heap'.length = q.heap.length) (hh : ∀ k : Nat, k ≠ N + 1 → heap'[k]? = q.heap[k]?) :
    Inv lt (⟨q.maxSize, q.cur, heap', q.indices.set x none, q.priorities⟩ : PQ P) ∧
    (⟨q.maxSize, q.cur, heap', q.indices.set x none, q.priorities⟩ : PQ P).content = q.content.update x none := by
  obtain ⟨y, hy, hy'⟩ := hb.pos (N + 1) (by omega) (Nat.le_refl _)
  rw [hx] at hy
  simp only [Option.some.injEq] at hy
  subst hy
  have hxl : x < q.indices.length := (List.getElem?_eq_some_iff.mp hy').1
  have hne : ∀ k z, 1 ≤ k → k ≤ N → q.indices[z]? = some (some k) → z ≠ x := by
    intro k z h1 h2 hz hzx
    subst hzx
    rw [hy'] at hz
    simp only [Option.some.injEq] at hz
    omega
  refine ⟨⟨?_, K, ?_, ?_⟩, ?_⟩
  · simp only [hcur]
    refine ⟨by simpa [hl] using hb.heapLen, by simpa using hb.indLen, hb.prLen, by have := hb.bound; simp only; omega, ?_, ?_, ?_⟩
    · simp only; rw [hh 0 (by omega)]; exact hb.zero
    · intro k h1 h2
      obtain ⟨z, hz, hz'⟩ := hb.pos k h1 (by omega)
      refine ⟨z, by simp only; rw [hh k (by omega)]; exact hz, ?_⟩
      simp only
      rw [List.getElem?_set_ne (Ne.symm (hne k z h1 h2 hz'))]
      exact hz'
    · intro z k hz
      simp only at hz ⊢
      by_cases hzx : z = x
      · subst hzx
        rw [List.getElem?_set_self hxl] at hz
        simp at hz
      · rw [List.getElem?_set_ne (Ne.symm hzx)] at hz
        obtain ⟨h1, h2, h3⟩ := hb.inv z k hz
        have hkN : k ≠ N + 1 := by
          intro hk; subst hk
          rw [hx] at h3
          simp only [Option.some.injEq] at h3
          exact hzx h3.symm
        exact ⟨h1, by omega, by rw [hh k hkN]; exact h3⟩
  · intro k h1 h2
    simp only [hcur] at h2
    have := hK k h1 (by omega)
    simp only [prioAt, heapAt] at this ⊢
    rw [hh k (by omega)]
    exact this
  · simp only [hcur]
    exact hO
  · funext j
    unfold PMap.update
    by_cases hj : j = x
    · subst hj
      rw [if_pos rfl]
      apply content_out
      simp only
      rw [List.getElem?_set_self hxl]
      simp
    · rw [if_neg hj]
      have hjs : (q.indices.set x none)[j]? = q.indices[j]? := List.getElem?_set_ne (Ne.symm hj)
      by_cases hjin : ∃ k, q.indices[j]? = some (some k)
      · obtain ⟨k, hk⟩ := hjin
        rw [content_in hk, content_in (q := ⟨q.maxSize, q.cur, heap', q.indices.set x none, q.priorities⟩) (k := k) (by simp only [hjs]; exact hk)]
      · rw [content_out hjin, content_out (q := ⟨q.maxSize, q.cur, heap', q.indices.set x none, q.priorities⟩)]
        simp only [hjs]
        exact hjin

theorem swapK_heap {lt : P → P → Bool} {N : Nat} {K : Nat → P} (h : HeapOrd lt (N + 1) K) {ind j : Nat} (h1 : 2 ≤ j) (h2 : j ≤ N) (hj : j ≠ ind) (hj2 : j / 2 ≠ ind) :
    OkAt lt (swapK K ind (N + 1)) j := by
  unfold OkAt swapK
  rw [if_neg hj, if_neg (by omega), if_neg hj2, if_neg (by omega)]
  exact h j h1 (by omega)

theorem swapK_grand {lt : P → P → Bool} (hlt : StrictWeak lt) {N : Nat} {K : Nat → P} (h : HeapOrd lt (N + 1) K) {ind j : Nat} (h1 : 2 ≤ j) (h2 : j ≤ N)
    (hj : j / 2 = ind) (hi : 2 ≤ ind) : lt (swapK K ind (N + 1) j) (swapK K ind (N + 1) (ind / 2)) = false := by
  unfold swapK
  rw [if_neg (by omega), if_neg (by omega), if_neg (by omega), if_neg (by omega)]
  exact h.grand hlt h1 (by omega) hj hi

theorem pop_spec {lt : P → P → Bool} (hlt : StrictWeak lt) {q : PQ P} (h : Inv lt q) (hc : 1 ≤ q.cur) :
    ∃ q' i p, q.pop lt = some q' ∧ Inv lt q' ∧ q'.maxSize = q.maxSize ∧ q.top = some (some i) ∧ q.content.IsTop lt i p ∧ q'.content = q.content.update i none := by
  obtain ⟨K, hK, hO⟩ := h.ord
  obtain ⟨i, p, ht, _, htop, hind⟩ := h.top hlt hc
  obtain ⟨N, hN⟩ : ∃ N, q.cur = N + 1 := ⟨q.cur - 1, by omega⟩
  have hb := h.bij
  rw [hN] at hb hK hO
  obtain ⟨q1, e1, e2, e3, e4, e5, e6⟩ := swapItems_spec hb hK (i := 1) (j := N + 1) (by omega) (by omega) (by omega) (by omega)
  have hc1 : q1.cur - 1 = N := by rw [e4.cur, hN]; rfl
  have hb1 : Bij (⟨q1.maxSize, q1.cur - 1, q1.heap, q1.indices, q1.priorities⟩ : PQ P) (N + 1) :=
    ⟨e2.heapLen, e2.indLen, e2.prLen, e2.bound, e2.zero, e2.pos, e2.inv⟩
  obtain ⟨q2, K2, f1, f2, f3, f4, f5, f6⟩ := bubbleDown_spec hlt (q1.cur - 1 + 2) ⟨q1.maxSize, q1.cur - 1, q1.heap, q1.indices, q1.priorities⟩ _ 1 hb1 e3
    (by simp only; omega) (by omega) (by simp only; omega) (by omega) (by
      simp only [hc1]
      refine ⟨fun j h1 h2 h3 => swapK_heap hO h1 h2 (by omega) h3, fun j h1 h2 h3 h4 => by omega⟩)
  simp only [hc1] at f4 f6
  have hcur2 : q2.cur = N := by rw [f5.cur]; exact hc1
  have hx : q2.heap[N + 1]? = some (some i) := by
    rw [f6 (N + 1) (by omega), e6]
    exact ht
  have hil : i < q2.indices.length := by
    obtain ⟨k, hk⟩ := (f5.items i).mpr ((e4.items i).mpr ⟨1, hind⟩)
    exact (List.getElem?_eq_some_iff.mp hk).1
  have hhl : q2.cur + 1 < q2.heap.length := by rw [f2.heapLen, hcur2]; have := f2.bound; omega
  obtain ⟨g1, g2⟩ := erase_last f2 f3 f4 hcur2 hx (heap' := q2.heap.set (q2.cur + 1) none) (by simp) (by
    intro k hk
    rw [List.getElem?_set_ne (by rw [hcur2]; omega)])
  refine ⟨_, i, p, ?_, g1, ?_, ht, htop, ?_⟩
  · unfold pop
    have hht : q.heapAt 1 = some i := by
      unfold PQ.top at ht
      simp [heapAt, ht]
    simp only [hht, hN, e1, f1, setAt_of_lt _ hil, setAt_of_lt _ hhl]
  · simp only
    rw [f5.maxSize]
    exact e4.maxSize
  · rw [g2, content_same f5]
    have : (⟨q1.maxSize, q1.cur - 1, q1.heap, q1.indices, q1.priorities⟩ : PQ P).content = q1.content := by
      funext j; rfl
    rw [this, content_same e4]

theorem bubbleUp_ok {lt : P → P → Bool} (hlt : StrictWeak lt) {q : PQ P} {N : Nat} {K : Nat → P} (hK : Keys q N K) {k n : Nat} (hk : k ≤ N) (hok : 2 ≤ k → OkAt lt K k) :
    bubbleUp lt (n + 1) q k = some q := by
  unfold bubbleUp
  by_cases h1 : k > 1
  · rw [if_pos h1, hK (k / 2) (by omega) (by omega), hK k (by omega) (by omega)]
    simp only [gt_eq hlt]
    have := hok h1
    unfold OkAt at this
    rw [this]
    simp
  · rw [if_neg h1]

theorem delete_spec {lt : P → P → Bool} (hlt : StrictWeak lt) {q : PQ P} (h : Inv lt q) {i : Nat} {p : P} (hi : q.content i = some p) :
    ∃ q', q.deleteItem lt i = some q' ∧ Inv lt q' ∧ q'.maxSize = q.maxSize ∧ q'.content = q.content.update i none := by
  obtain ⟨K, hK, hO⟩ := h.ord
  obtain ⟨ind, hind⟩ := (h.bij.content_some (i := i)).mp ⟨p, hi⟩
  obtain ⟨a1, a2, a3⟩ := h.bij.inv i ind hind
  obtain ⟨N, hN⟩ : ∃ N, q.cur = N + 1 := ⟨q.cur - 1, by omega⟩
  have hb := h.bij
  rw [hN] at hb hK hO a2
  obtain ⟨q1, e1, e2, e3, e4, e5, e6⟩ := swapItems_spec hb hK (i := ind) (j := N + 1) a1 a2 (by omega) (by omega)
  have hc1 : q1.cur - 1 = N := by rw [e4.cur, hN]; rfl
  have hb1 : Bij (⟨q1.maxSize, q1.cur - 1, q1.heap, q1.indices, q1.priorities⟩ : PQ P) (N + 1) :=
    ⟨e2.heapLen, e2.indLen, e2.prLen, e2.bound, e2.zero, e2.pos, e2.inv⟩
  have hx1 : q1.heap[N + 1]? = some (some i) := by rw [e6, a3]
  -- bubbling
  have hmid : ∃ q2 q3 K3, bubbleUp lt (ind + 1) ⟨q1.maxSize, q1.cur - 1, q1.heap, q1.indices, q1.priorities⟩ ind = some q2 ∧
      bubbleDown lt (q2.cur + 2) q2 ind = some q3 ∧ Bij q3 (N + 1) ∧ Keys q3 (N + 1) K3 ∧ HeapOrd lt N K3 ∧
      Same (⟨q1.maxSize, q1.cur - 1, q1.heap, q1.indices, q1.priorities⟩ : PQ P) q3 ∧ q3.heap[N + 1]? = some (some i) := by
    by_cases hlast : ind = N + 1
    · have hsw : swapK K ind (N + 1) = K := by
        funext k
        unfold swapK
        rw [hlast]
        by_cases hk : k = N + 1
        · rw [if_pos hk, hk]
        · rw [if_neg hk, if_neg hk]
      rw [hsw] at e3
      refine ⟨⟨q1.maxSize, q1.cur - 1, q1.heap, q1.indices, q1.priorities⟩, ⟨q1.maxSize, q1.cur - 1, q1.heap, q1.indices, q1.priorities⟩, K,
        bubbleUp_ok hlt (q := ⟨q1.maxSize, q1.cur - 1, q1.heap, q1.indices, q1.priorities⟩) e3 a2 (fun h2 => hO ind h2 a2), ?_, hb1, e3,
        fun k h1 h2 => hO k h1 (by omega), Same.refl _, hx1⟩
      unfold bubbleDown
      simp only
      rw [if_neg (by omega)]
    · have hup : ∃ q2 K2, bubbleUp lt (ind + 1) ⟨q1.maxSize, q1.cur - 1, q1.heap, q1.indices, q1.priorities⟩ ind = some q2 ∧ Bij q2 (N + 1) ∧ Keys q2 (N + 1) K2 ∧
          Down lt N K2 ind ∧ Same (⟨q1.maxSize, q1.cur - 1, q1.heap, q1.indices, q1.priorities⟩ : PQ P) q2 ∧ q2.heap[N + 1]? = some (some i) := by
        by_cases hok : 2 ≤ ind → OkAt lt (swapK K ind (N + 1)) ind
        · refine ⟨_, _, bubbleUp_ok hlt (q := ⟨q1.maxSize, q1.cur - 1, q1.heap, q1.indices, q1.priorities⟩) e3 a2 hok, hb1, e3, ?_, Same.refl _, hx1⟩
          refine ⟨?_, fun j h1 h2 h3 h4 => swapK_grand hlt hO h1 h2 h3 h4⟩
          intro j h1 h2 h3
          by_cases hj : j = ind
          · subst hj; exact hok h1
          · exact swapK_heap hO h1 h2 hj h3
        · rw [Classical.not_imp] at hok
          obtain ⟨h2i, hok⟩ := hok
          unfold OkAt at hok
          rw [Bool.not_eq_false] at hok
          obtain ⟨q2, K2, f1, f2, f3, f4, f5, f6⟩ := bubbleUp_spec hlt (c := N) (ind + 1) ⟨q1.maxSize, q1.cur - 1, q1.heap, q1.indices, q1.priorities⟩ _ ind hb1 e3
            (by omega) (by omega) (by omega) (by
              refine ⟨?_, fun j h1 h2 h3 h4 => swapK_grand hlt hO h1 h2 h3 h4⟩
              intro j h1 h2 h3
              by_cases hj : j / 2 = ind
              · unfold OkAt
                rw [hj]
                exact hlt.le_trans (hlt.asymm hok) (swapK_grand hlt hO h1 h2 hj h2i)
              · exact swapK_heap hO h1 h2 h3 hj)
          exact ⟨q2, K2, f1, f2, f3, f4.down hlt ind, f5, by rw [f6 (N + 1) (by omega)]; exact hx1⟩
      obtain ⟨q2, K2, f1, f2, f3, f4, f5, f6⟩ := hup
      have hc2 : q2.cur = N := by rw [f5.cur]; exact hc1
      obtain ⟨q3, K3, g1, g2, g3, g4, g5, g6⟩ := bubbleDown_spec hlt (q2.cur + 2) q2 K2 ind f2 f3 (by omega) a1 (by omega) (by omega) (by rw [hc2]; exact f4)
      rw [hc2] at g4 g6
      exact ⟨q2, q3, K3, f1, g1, g2, g3, g4, f5.trans g5, by rw [g6 (N + 1) (by omega)]; exact f6⟩
  obtain ⟨q2, q3, K3, f1, f2, f3, f4, f5, f6, f7⟩ := hmid
  have hcur3 : q3.cur = N := by rw [f6.cur]; exact hc1
  have hil : i < q3.indices.length := by
    obtain ⟨k, hk⟩ := (f6.items i).mpr ((e4.items i).mpr ⟨ind, hind⟩)
    exact (List.getElem?_eq_some_iff.mp hk).1
  obtain ⟨g1, g2⟩ := erase_last f3 f4 f5 hcur3 f7 (heap' := q3.heap) rfl (fun _ _ => rfl)
  refine ⟨_, ?_, g1, ?_, ?_⟩
  · unfold deleteItem
    simp only [hind, hN, e1, f1, f2, setAt_of_lt _ hil]
  · simp only
    rw [f6.maxSize]
    exact e4.maxSize
  · rw [g2, content_same f6]
    have : (⟨q1.maxSize, q1.cur - 1, q1.heap, q1.indices, q1.priorities⟩ : PQ P).content = q1.content := by
      funext j; rfl
    rw [this, content_same e4]

theorem resetLoop_spec (heap : List (Option Nat)) : ∀ (n i : Nat) (ind : List (Option Nat)),
    (∀ k, i ≤ k → k < i + n → ∃ x, heap[k]? = some (some x) ∧ x < ind.length) →
    ∃ ind', resetLoop heap i n ind = some ind' ∧ ind'.length = ind.length ∧ (∀ x : Nat, ind'[x]? = some none ∨ ind'[x]? = ind[x]?) ∧
      ∀ k x, i ≤ k → k < i + n → heap[k]? = some (some x) → ind'[x]? = some none
  | 0, i, ind, _ => ⟨ind, rfl, rfl, fun _ => Or.inr rfl, fun k x h1 h2 _ => by omega⟩
  | n + 1, i, ind, h => by
    obtain ⟨x, hx, hxl⟩ := h i (Nat.le_refl _) (by omega)
    unfold resetLoop
    simp only [hx, setAt_of_lt _ hxl]
    obtain ⟨ind', e1, e2, e3, e4⟩ := resetLoop_spec heap n (i + 1) (ind.set x none) (by
      intro k h1 h2
      obtain ⟨y, hy, hyl⟩ := h k (by omega) (by omega)
      exact ⟨y, hy, by simpa using hyl⟩)
    refine ⟨ind', e1, by simpa using e2, ?_, ?_⟩
    · intro y
      rcases e3 y with h' | h'
      · exact Or.inl h'
      · by_cases hy : y = x
        · subst hy
          rw [List.getElem?_set_self hxl] at h'
          exact Or.inl h'
        · rw [List.getElem?_set_ne (Ne.symm hy)] at h'
          exact Or.inr h'
    · intro k y h1 h2 hy
      by_cases hk : k = i
      · subst hk
        rw [hx] at hy
        simp only [Option.some.injEq] at hy
        subst hy
        rcases e3 x with h' | h'
        · exact h'
        · rw [h', List.getElem?_set_self hxl]
      · exact e4 k y (by omega) (by omega) hy

theorem reset_spec {lt : P → P → Bool} {q : PQ P} (h : Inv lt q) (p0 : P) : ∃ q', q.reset = some q' ∧ Inv lt q' ∧ q'.maxSize = q.maxSize ∧ q'.content = fun _ => none := by
  obtain ⟨ind', e1, e2, e3, e4⟩ := resetLoop_spec q.heap (q.cur + 1) 0 q.indices (by
    intro k _ h2
    by_cases hk : k = 0
    · subst hk; exact ⟨0, h.bij.zero, by rw [h.bij.indLen]; omega⟩
    · obtain ⟨x, hx, hx'⟩ := h.bij.pos k (by omega) (by omega)
      exact ⟨x, hx, (List.getElem?_eq_some_iff.mp hx').1⟩)
  have hno : ∀ x k : Nat, ind'[x]? ≠ some (some k) := by
    intro x k hx
    rcases e3 x with h' | h'
    · rw [h'] at hx; simp at hx
    · rw [h'] at hx
      obtain ⟨h1, h2, h3⟩ := h.bij.inv x k hx
      have := e4 k x (by omega) (by omega) h3
      rw [h', hx] at this
      simp at this
  refine ⟨⟨q.maxSize, 0, q.heap, ind', q.priorities⟩, by simp only [reset, e1], ⟨⟨h.bij.heapLen, by simpa [e2] using h.bij.indLen, h.bij.prLen, Nat.zero_le _, h.bij.zero, ?_, ?_⟩,
    fun _ => p0, ?_, ?_⟩, rfl, ?_⟩
  · intro k h1 h2; simp only at h2; omega
  · intro x k hx; exact absurd hx (hno x k)
  · intro k h1 h2; simp only at h2; omega
  · intro k h1 h2; simp only at h2; omega
  · funext x
    apply content_out
    rintro ⟨k, hk⟩
    exact hno x k hk

theorem setPriorities_spec {lt : P → P → Bool} (hlt : StrictWeak lt) {q : PQ P} (h : Inv lt q) (p : P) :
    Inv lt (q.setPriorities p) ∧ (q.setPriorities p).content = fun i => (q.content i).map (fun _ => p) := by
  refine ⟨⟨⟨h.bij.heapLen, h.bij.indLen, by simpa [setPriorities] using h.bij.prLen, h.bij.bound, h.bij.zero, h.bij.pos, h.bij.inv⟩, fun _ => p, ?_, ?_⟩, ?_⟩
  · intro k h1 h2
    obtain ⟨x, hx, hx'⟩ := h.bij.pos k h1 h2
    have hl : x < q.priorities.length := by rw [h.bij.prLen]; exact h.bij.item_lt hx'
    simp only [prioAt, heapAt, setPriorities, hx, List.getElem?_map]
    rw [List.getElem?_eq_getElem hl]
    rfl
  · intro k _ _; exact hlt.irrefl p
  · funext i
    by_cases hi : ∃ k, q.indices[i]? = some (some k)
    · obtain ⟨k, hk⟩ := hi
      rw [content_in hk, content_in (q := q.setPriorities p) hk]
      simp only [setPriorities, List.getElem?_map]
    · rw [content_out hi, content_out (q := q.setPriorities p) hi]
      rfl

theorem step_spec {lt : P → P → Bool} (hlt : StrictWeak lt) {q : PQ P} (h : Inv lt q) (op : PQOp P) (hv : op.Valid q.maxSize q.content) :
    ∃ q', q.step lt op = some q' ∧ Inv lt q' ∧ q'.maxSize = q.maxSize ∧ op.After lt q.content (q.top.bind id) q'.content := by
  cases op with
  | push i p =>
    obtain ⟨hi, hs⟩ := hv
    cases hc : q.content i with
    | some old =>
      obtain ⟨k, hk⟩ := (h.bij.content_some (i := i)).mp ⟨old, hc⟩
      have hcon : q.contains i = some true := by simp [contains, hk]
      obtain ⟨q', e1, e2, e3, e4⟩ := change_spec hlt h hc p
      exact ⟨q', by simp only [step, push, hcon, e1], e2, e3, e4⟩
    | none =>
      have hsz := hs hc
      rw [h.bij.size_eq] at hsz
      obtain ⟨q', e1, e2, e3, e4⟩ := push_new hlt h hc hi hsz p
      exact ⟨q', e1, e2, e3, Or.inl e4⟩
  | pop =>
    obtain ⟨i, p, hi⟩ := hv
    obtain ⟨k, hk⟩ := (h.bij.content_some (i := i)).mp ⟨p, hi⟩
    have hkb := h.bij.inv i k hk
    obtain ⟨q', i, p, e1, e2, e3, e4, e5, e6⟩ := pop_spec hlt h (by omega)
    exact ⟨q', e1, e2, e3, i, p, by rw [e4]; rfl, e5, e6⟩
  | deleteItem i =>
    obtain ⟨p, hi⟩ := hv
    exact delete_spec hlt h hi
  | changePriority i p =>
    obtain ⟨old, hi⟩ := hv
    exact change_spec hlt h hi p
  | reset =>
    obtain ⟨p0⟩ : Nonempty P := by
      have : 0 < q.priorities.length := by rw [h.bij.prLen]; omega
      exact ⟨q.priorities[0]⟩
    exact reset_spec h p0
  | setPriorities p =>
    obtain ⟨e1, e2⟩ := setPriorities_spec hlt h p
    exact ⟨_, rfl, e1, rfl, e2⟩

end PQ
end OpenGM
