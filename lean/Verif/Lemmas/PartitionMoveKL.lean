import Verif.Model.PartitionMove
import Verif.Prelude
import Mathlib.Algebra.BigOperators.Group.Finset.Basic
import Mathlib.Algebra.BigOperators.Ring.Finset
import Mathlib.Algebra.BigOperators.Group.Finset.Sigma
import Mathlib.Algebra.BigOperators.Group.Finset.Piecewise
import Mathlib.Tactic.Ring
import Mathlib.Tactic.Linarith
/-
PartitionMove: the weight of a partition and the Kernighan-Lin step.
-/
namespace OpenGM
namespace PartitionMove
open Finset

/-- 1 for different labels. -/
def ne (a b : Nat) : ℚ := if a = b then 0 else 1

theorem ne_comm (a b : Nat) : ne a b = ne b a := by unfold ne; simp [eq_comm]

/-- Twice the sum of the weights between variables with different labels. -/
def cut (n : Nat) (W : Nat → Nat → ℚ) (x : Nat → Nat) : ℚ := ∑ a ∈ range n, ∑ b ∈ range n, W a b * ne (x a) (x b)

/-- Half the change of `cut` if `u` gets the label `q`. -/
def gain (n : Nat) (W : Nat → Nat → ℚ) (x : Nat → Nat) (u q : Nat) : ℚ := ∑ v ∈ range n, W u v * (ne q (x v) - ne (x u) (x v))

theorem cut_update {n : Nat} {W : Nat → Nat → ℚ} (hs : ∀ a b, W a b = W b a) (hd : ∀ a, W a a = 0) (x : Nat → Nat) {u : Nat} (hu : u < n) (q : Nat) :
    cut n W (Function.update x u q) = cut n W x + 2 * gain n W x u q := by
  have hterm : ∀ a b, W a b * ne (Function.update x u q a) (Function.update x u q b) = W a b * ne (x a) (x b) +
      ((if a = u then W u b * (ne q (x b) - ne (x u) (x b)) else 0) + (if b = u then W u a * (ne q (x a) - ne (x u) (x a)) else 0)) := by
    intro a b
    by_cases ha : a = u
    · subst ha
      by_cases hb : b = a
      · subst hb
        simp [hd]
      · simp only [Function.update_self, Function.update_of_ne hb, if_pos, if_neg hb]
        ring
    · by_cases hb : b = u
      · subst hb
        simp only [Function.update_self, Function.update_of_ne ha, if_pos, if_neg ha]
        rw [hs a b, ne_comm (x a) q, ne_comm (x a) (x b)]
        ring
      · simp only [Function.update_of_ne ha, Function.update_of_ne hb, if_neg ha, if_neg hb]
        ring
  unfold cut gain
  simp only [hterm, Finset.sum_add_distrib]
  have h1 : ∑ a ∈ range n, ∑ b ∈ range n, (if a = u then W u b * (ne q (x b) - ne (x u) (x b)) else 0) = ∑ b ∈ range n, W u b * (ne q (x b) - ne (x u) (x b)) := by
    rw [Finset.sum_comm]
    refine Finset.sum_congr rfl (fun b _ => ?_)
    rw [Finset.sum_ite_eq' (range n) u]
    simp [hu]
  have h2 : ∑ a ∈ range n, ∑ b ∈ range n, (if b = u then W u a * (ne q (x a) - ne (x u) (x a)) else 0) = ∑ a ∈ range n, W u a * (ne q (x a) - ne (x u) (x a)) := by
    refine Finset.sum_congr rfl (fun a _ => ?_)
    rw [Finset.sum_ite_eq' (range n) u]
    simp [hu]
  rw [h1, h2]
  ring

theorem cut_congr {n : Nat} {W : Nat → Nat → ℚ} {x y : Nat → Nat} (h : ∀ u v, u < n → v < n → (x u = x v ↔ y u = y v)) : cut n W x = cut n W y := by
  unfold cut
  refine Finset.sum_congr rfl (fun a ha => Finset.sum_congr rfl (fun b hb => ?_))
  have := h a b (Finset.mem_range.mp ha) (Finset.mem_range.mp hb)
  unfold ne
  simp only [this]

/-! ### the graph -/

/-- The neighbour lists and the weights are those of the symmetric matrix `W`. -/
structure Graph (n : Nat) (W : Nat → Nat → ℚ) (nbs : List (List (Nat × Nat))) (ws : List ℚ) : Prop where
  sym : ∀ a b, W a b = W b a
  diag : ∀ a, W a a = 0
  len : nbs.length = n
  nb : ∀ (u : Nat) (nb : List (Nat × Nat)), nbs[u]? = some nb → (nb.map Prod.fst).Nodup ∧ (∀ e ∈ nb, e.1 < n ∧ ws[e.2]? = some (W u e.1)) ∧
    ∀ v, v < n → v ∉ nb.map Prod.fst → W u v = 0

theorem Graph.get {n : Nat} {W : Nat → Nat → ℚ} {nbs : List (List (Nat × Nat))} {ws : List ℚ} (h : Graph n W nbs ws) {u : Nat} (hu : u < n) :
    ∃ nb, nbs[u]? = some nb := ⟨_, List.getElem?_eq_getElem (by rw [h.len]; exact hu)⟩

theorem sum_map_nodup (g : Nat → ℚ) : ∀ (l : List Nat), l.Nodup → (l.map g).sum = ∑ v ∈ l.toFinset, g v
  | [], _ => by simp
  | a :: l, h => by
    rw [List.nodup_cons] at h
    rw [List.map_cons, List.sum_cons, List.toFinset_cons, Finset.sum_insert (by simpa using h.1), sum_map_nodup g l h.2]

theorem Graph.sum {n : Nat} {W : Nat → Nat → ℚ} {nbs : List (List (Nat × Nat))} {ws : List ℚ} (h : Graph n W nbs ws) {u : Nat} {nb : List (Nat × Nat)}
    (hu : nbs[u]? = some nb) (c : Nat → ℚ) : (nb.map (fun e => W u e.1 * c e.1)).sum = ∑ v ∈ range n, W u v * c v := by
  obtain ⟨h1, h2, h3⟩ := h.nb u nb hu
  have : nb.map (fun e => W u e.1 * c e.1) = (nb.map Prod.fst).map (fun v => W u v * c v) := by rw [List.map_map]; rfl
  rw [this, sum_map_nodup _ _ h1]
  refine Finset.sum_subset ?_ ?_
  · intro v hv
    rw [List.mem_toFinset] at hv
    obtain ⟨e, he, rfl⟩ := List.mem_map.mp hv
    exact Finset.mem_range.mpr (h2 e he).1
  · intro v hv hn
    rw [List.mem_toFinset] at hn
    rw [h3 v (Finset.mem_range.mp hv) hn, zero_mul]

theorem sums_spec (ws : List ℚ) (mine other : List Nat) (w : Nat → ℚ) : ∀ (nb : List (Nat × Nat)) (ext int : ℚ), (∀ e ∈ nb, ws[e.2]? = some (w e.1)) →
    ∃ E I, sums ws mine other nb (ext, int) = some (E, I) ∧
      -(E - I) = -(ext - int) + (nb.map (fun e => w e.1 * (if e.1 ∈ mine then 1 else if e.1 ∈ other then -1 else 0))).sum
  | [], ext, int, _ => ⟨ext, int, rfl, by simp⟩
  | (v, e) :: nb, ext, int, h => by
    rw [sums, h (v, e) (by simp)]
    simp only
    have hrest : ∀ e ∈ nb, ws[e.2]? = some (w e.1) := fun e he => h e (by simp [he])
    split
    · rename_i hm
      obtain ⟨E, I, h1, h2⟩ := sums_spec ws mine other w nb ext (int + w v) hrest
      exact ⟨E, I, h1, by rw [h2]; simp [hm]; ring⟩
    · rename_i hm
      split
      · rename_i ho
        obtain ⟨E, I, h1, h2⟩ := sums_spec ws mine other w nb (ext + w v) int hrest
        exact ⟨E, I, h1, by rw [h2]; simp [hm, ho]; ring⟩
      · rename_i ho
        obtain ⟨E, I, h1, h2⟩ := sums_spec ws mine other w nb ext int hrest
        exact ⟨E, I, h1, by rw [h2]; simp [hm, ho]⟩

/-! ### two sets -/

/-- `S0` and `S1` are the variables with labels `p0` and `p1`. -/
structure Pair (n : Nat) (x : Nat → Nat) (p0 p1 : Nat) (S0 S1 : List Nat) : Prop where
  ne : p0 ≠ p1
  nodup0 : S0.Nodup
  nodup1 : S1.Nodup
  mem0 : ∀ v, v ∈ S0 ↔ v < n ∧ x v = p0
  mem1 : ∀ v, v ∈ S1 ↔ v < n ∧ x v = p1

theorem Pair.swap {n : Nat} {x : Nat → Nat} {p0 p1 : Nat} {S0 S1 : List Nat} (h : Pair n x p0 p1 S0 S1) : Pair n x p1 p0 S1 S0 :=
  ⟨h.ne.symm, h.nodup1, h.nodup0, h.mem1, h.mem0⟩

/-- The other one of two labels. -/
def flip (p0 p1 q : Nat) : Nat := if q = p0 then p1 else if q = p1 then p0 else q

/-- The labeling after moving the variables in the list. -/
def conf (p0 p1 : Nat) (x : Nat → Nat) (l : List Nat) (v : Nat) : Nat := if v ∈ l then flip p0 p1 (x v) else x v

variable {n : Nat} {W : Nat → Nat → ℚ} {st : State}

theorem fillD_spec (hg : Graph n W st.neighbours st.edgeWeight) {x : Nat → Nat} {p0 p1 : Nat} {S0 S1 : List Nat} (hp : Pair n x p0 p1 S0 S1) :
    ∀ (nodes : List Nat) (D : List ℚ), D.length = n → (∀ v ∈ nodes, v ∈ S0) →
    ∃ D', fillD st S0 S1 nodes D = some D' ∧ D'.length = n ∧ (∀ v ∈ nodes, D'[v]? = some (gain n W x v p1)) ∧ ∀ v, v ∉ nodes → D'[v]? = D[v]?
  | [], D, hD, _ => ⟨D, rfl, hD, by simp, by simp⟩
  | node :: nodes, D, hD, hsub => by
    have hnode := (hp.mem0 node).mp (hsub node (by simp))
    obtain ⟨nb, hnb⟩ := hg.get hnode.1
    obtain ⟨E, I, e1, e2⟩ := sums_spec st.edgeWeight S0 S1 (W node) nb 0 0 (fun e he => ((hg.nb node nb hnb).2.1 e he).2)
    have hval : -(E - I) = gain n W x node p1 := by
      rw [e2, hg.sum hnb (fun v => if v ∈ S0 then 1 else if v ∈ S1 then -1 else 0), gain]
      simp only [sub_zero, neg_zero, zero_add]
      refine Finset.sum_congr rfl (fun v hv => ?_)
      have hv' := Finset.mem_range.mp hv
      congr 1
      simp only [hp.mem0, hp.mem1, hv', true_and, hnode.2, PartitionMove.ne]
      by_cases h0 : x v = p0
      · simp [h0, hp.ne.symm]
      · by_cases h1 : x v = p1
        · simp [h1, hp.ne, hp.ne.symm]
        · simp [h0, h1, Ne.symm h0, Ne.symm h1]
    rw [fillD, hnb]
    simp only
    rw [e1]
    simp only
    rw [setAt_of_lt _ (by omega)]
    simp only
    obtain ⟨D', d1, d2, d3, d4⟩ := fillD_spec hg hp nodes (D.set node (-(E - I))) (by simpa using hD) (fun v hv => hsub v (by simp [hv]))
    refine ⟨D', d1, d2, ?_, ?_⟩
    · intro v hv
      by_cases hvn : v ∈ nodes
      · exact d3 v hvn
      · have : v = node := by simpa [hvn] using hv
        subst this
        rw [d4 v hvn, List.getElem?_set_self (by omega), hval]
    · intro v hv
      simp only [List.mem_cons, not_or] at hv
      rw [d4 v hv.2, List.getElem?_set_ne (Ne.symm hv.1)]

theorem searchSet_spec (D : List ℚ) (moved : List Bool) (P : Nat → Prop) (hD : D.length = n) (hm : moved.length = n) : ∀ (vs : List Nat) (best : Option (ℚ × Nat)),
    (∀ v ∈ vs, v < n ∧ P v) → (∀ d v, best = some (d, v) → P v ∧ v < n ∧ moved[v]? = some false ∧ D[v]? = some d) →
    ∃ r, searchSet D moved vs best = some r ∧ ∀ d v, r = some (d, v) → P v ∧ v < n ∧ moved[v]? = some false ∧ D[v]? = some d
  | [], best, _, hb => ⟨best, rfl, hb⟩
  | v :: vs, best, hv, hb => by
    obtain ⟨hvn, hPv⟩ := hv v (by simp)
    have hrest : ∀ v ∈ vs, v < n ∧ P v := fun w hw => hv w (by simp [hw])
    have h1 : moved[v]? = some (moved[v]'(by omega)) := List.getElem?_eq_getElem _
    have h2 : D[v]? = some (D[v]'(by omega)) := List.getElem?_eq_getElem _
    have hnew : ∀ d w, some (D[v]'(by omega), v) = some (d, w) → (moved[v]'(by omega) = false) → P w ∧ w < n ∧ moved[w]? = some false ∧ D[w]? = some d := by
      intro d w he hf
      simp only [Option.some.injEq, Prod.mk.injEq] at he
      obtain ⟨rfl, rfl⟩ := he
      exact ⟨hPv, hvn, by rw [h1, hf], h2⟩
    rw [searchSet, h1, h2]
    cases hmv : moved[v]'(by omega) with
    | true =>
      simp only
      exact searchSet_spec D moved P hD hm vs best hrest hb
    | false =>
      simp only
      cases best with
      | none =>
        simp only
        exact searchSet_spec D moved P hD hm vs _ hrest (fun d w he => hnew d w he hmv)
      | some b =>
        obtain ⟨improve, node⟩ := b
        simp only
        split
        · exact searchSet_spec D moved P hD hm vs _ hrest (fun d w he => hnew d w he hmv)
        · exact searchSet_spec D moved P hD hm vs _ hrest hb

theorem updateD_spec (ws : List ℚ) (mySet : List Nat) (w : Nat → ℚ) : ∀ (nb : List (Nat × Nat)) (D : List ℚ), D.length = n → (nb.map Prod.fst).Nodup →
    (∀ e ∈ nb, e.1 < n ∧ ws[e.2]? = some (w e.1)) →
    ∃ D', updateD ws mySet nb D = some D' ∧ D'.length = n ∧
      (∀ v d, v ∈ nb.map Prod.fst → D[v]? = some d → D'[v]? = some (if v ∈ mySet then d - 2 * w v else d + 2 * w v)) ∧
      (∀ v, v ∉ nb.map Prod.fst → D'[v]? = D[v]?)
  | [], D, hD, _, _ => ⟨D, rfl, hD, by simp, by simp⟩
  | (v, e) :: nb, D, hD, hn, hw => by
    obtain ⟨hvn, hwe⟩ := hw (v, e) (by simp)
    simp only at hvn hwe
    rw [List.map_cons, List.nodup_cons] at hn
    have h2 : D[v]? = some (D[v]'(by omega)) := List.getElem?_eq_getElem _
    rw [updateD, hwe, h2]
    simp only
    rw [setAt_of_lt _ (by omega)]
    simp only
    obtain ⟨D', d1, d2, d3, d4⟩ := updateD_spec ws mySet w nb (D.set v (if v ∈ mySet then D[v]'(by omega) - 2 * w v else D[v]'(by omega) + 2 * w v))
      (by simpa using hD) hn.2 (fun e he => hw e (by simp [he]))
    refine ⟨D', d1, d2, ?_, ?_⟩
    · intro u d hu hd
      rw [List.map_cons, List.mem_cons] at hu
      by_cases huv : u = v
      · subst huv
        rw [d4 u hn.1, List.getElem?_set_self (by omega)]
        rw [h2] at hd
        rw [Option.some.inj hd]
      · have hu' : u ∈ nb.map Prod.fst := by simpa [huv] using hu
        exact d3 u d hu' (by rw [List.getElem?_set_ne (Ne.symm huv)]; exact hd)
    · intro u hu
      rw [List.map_cons, List.mem_cons, not_or] at hu
      rw [d4 u hu.2, List.getElem?_set_ne (Ne.symm hu.1)]

/-! ### the move sequence -/

/-- The state of the loop over the moves. -/
structure MInv (n : Nat) (W : Nat → Nat → ℚ) (x : Nat → Nat) (p0 p1 : Nat) (S0 S1 : List Nat) (m : Moves) : Prop where
  lenD : m.D.length = n
  lenM : m.moved.length = n
  nodup : m.seq.Nodup
  sub : ∀ v ∈ m.seq, v ∈ S0 ∨ v ∈ S1
  moved : ∀ v, v < n → m.moved[v]? = some (decide (v ∈ m.seq))
  lenS : m.sumSeq.length = m.seq.length + 1
  sums : ∀ k, k ≤ m.seq.length → m.sumSeq[k]? = some ((cut n W (conf p0 p1 x (m.seq.take k)) - cut n W x) / 2)
  best : m.bestMove ≤ m.seq.length
  D : ∀ v, v ∈ S0 ∨ v ∈ S1 → v ∉ m.seq → m.D[v]? = some (gain n W (conf p0 p1 x m.seq) v (flip p0 p1 (x v)))

theorem conf_append (p0 p1 : Nat) (x : Nat → Nat) (l : List Nat) (v : Nat) :
    conf p0 p1 x (l ++ [v]) = Function.update (conf p0 p1 x l) v (flip p0 p1 (x v)) := by
  funext u
  by_cases h : u = v
  · subst h
    simp [conf]
  · rw [Function.update_of_ne h]
    simp [conf, h]

/-- Moving `u` changes the gain of `v` by twice the weight. -/
theorem gain_update {x : Nat → Nat} {p0 p1 : Nat} (hd : ∀ a, W a a = 0) (hne : p0 ≠ p1) {y : Nat → Nat} {u v : Nat} (hu : u < n) (huv : v ≠ u)
    (hyu : y u = x u) (hyv : y v = x v) (hxu : x u = p0 ∨ x u = p1) (hxv : x v = p0 ∨ x v = p1) :
    gain n W (Function.update y u (flip p0 p1 (x u))) v (flip p0 p1 (x v)) =
      gain n W y v (flip p0 p1 (x v)) + (if x v = x u then - 2 * W v u else 2 * W v u) := by
  unfold gain
  rw [← Finset.sum_erase_add (range n) _ (Finset.mem_range.mpr hu), ← Finset.sum_erase_add (range n) (fun b => W v b * (ne (flip p0 p1 (x v)) (y b) - ne (y v) (y b))) (Finset.mem_range.mpr hu)]
  have h1 : ∑ b ∈ (range n).erase u, W v b * (ne (flip p0 p1 (x v)) (Function.update y u (flip p0 p1 (x u)) b) - ne (Function.update y u (flip p0 p1 (x u)) v) (Function.update y u (flip p0 p1 (x u)) b)) =
      ∑ b ∈ (range n).erase u, W v b * (ne (flip p0 p1 (x v)) (y b) - ne (y v) (y b)) := by
    refine Finset.sum_congr rfl (fun b hb => ?_)
    rw [Function.update_of_ne (Finset.ne_of_mem_erase hb), Function.update_of_ne huv]
  rw [h1, Function.update_self, Function.update_of_ne huv, hyu, hyv]
  have h2 : W v u * (ne (flip p0 p1 (x v)) (flip p0 p1 (x u)) - ne (x v) (flip p0 p1 (x u))) =
      W v u * (ne (flip p0 p1 (x v)) (x u) - ne (x v) (x u)) + (if x v = x u then - 2 * W v u else 2 * W v u) := by
    rcases hxu with h | h <;> rcases hxv with h' | h' <;> simp [h, h', flip, ne, hne, hne.symm] <;> ring
  rw [h2]
  ring

theorem movesLoop_spec (hg : Graph n W st.neighbours st.edgeWeight) {iter : List Nat → List Nat} (hiter : ∀ l, (iter l).Perm l) {x : Nat → Nat} {p0 p1 : Nat} {S0 S1 : List Nat}
    (hp : Pair n x p0 p1 S0 S1) : ∀ (k : Nat) (m : Moves), MInv n W x p0 p1 S0 S1 m → ∃ m', movesLoop st iter S0 S1 k m = some m' ∧ MInv n W x p0 p1 S0 S1 m'
  | 0, m, h => ⟨m, rfl, h⟩
  | k + 1, m, h => by
    have hlab : ∀ v, v ∈ S0 ∨ v ∈ S1 → v < n ∧ (x v = p0 ∨ x v = p1) := by
      rintro v (hv | hv)
      · exact ⟨((hp.mem0 v).mp hv).1, Or.inl ((hp.mem0 v).mp hv).2⟩
      · exact ⟨((hp.mem1 v).mp hv).1, Or.inr ((hp.mem1 v).mp hv).2⟩
    obtain ⟨r0, r1, r2⟩ := searchSet_spec (n := n) m.D m.moved (fun v => v ∈ S0 ∨ v ∈ S1) h.lenD h.lenM (iter S0) none
      (fun v hv => by
        have hv' : v ∈ S0 := (hiter S0).mem_iff.mp hv
        exact ⟨(hlab v (Or.inl hv')).1, Or.inl hv'⟩) (by simp)
    obtain ⟨r, q1, q2⟩ := searchSet_spec (n := n) m.D m.moved (fun v => v ∈ S0 ∨ v ∈ S1) h.lenD h.lenM (iter S1) r0
      (fun v hv => by
        have hv' : v ∈ S1 := (hiter S1).mem_iff.mp hv
        exact ⟨(hlab v (Or.inr hv')).1, Or.inr hv'⟩) r2
    rw [movesLoop, r1, Option.bind_some, q1]
    cases r with
    | none => exact ⟨m, rfl, h⟩
    | some b =>
      obtain ⟨improve, node⟩ := b
      simp only
      obtain ⟨hS, hn, hmv, hDv⟩ := q2 improve node rfl
      have hnotin : node ∉ m.seq := by
        have := h.moved node hn
        rw [hmv] at this
        simpa using this
      have himp : improve = gain n W (conf p0 p1 x m.seq) node (flip p0 p1 (x node)) := by
        have := h.D node hS hnotin
        rw [hDv] at this
        exact Option.some.inj this
      have hlast : m.sumSeq.getLast? = some ((cut n W (conf p0 p1 x m.seq) - cut n W x) / 2) := by
        have := h.sums m.seq.length (le_refl _)
        rw [List.take_length] at this
        rw [List.getLast?_eq_getElem?, h.lenS, Nat.add_sub_cancel]
        exact this
      obtain ⟨nb, hnb⟩ := hg.get hn
      rw [setAt_of_lt _ (by rw [h.lenM]; exact hn), hlast, hnb]
      simp only
      have hbest : ∃ best, (m.sumSeq ++ [(cut n W (conf p0 p1 x m.seq) - cut n W x) / 2 + improve])[m.bestMove]? = some best :=
        ⟨_, List.getElem?_eq_getElem (by rw [List.length_append, h.lenS]; have := h.best; simp; omega)⟩
      obtain ⟨best, hbest⟩ := hbest
      rw [hbest]
      simp only
      obtain ⟨b1, b2, b3⟩ := hg.nb node nb hnb
      obtain ⟨D', d1, d2, d3, d4⟩ := updateD_spec (n := n) st.edgeWeight (if node ∈ S0 then S0 else S1) (W node) nb m.D h.lenD b1 b2
      rw [d1]
      simp only
      refine movesLoop_spec hg hiter hp k _ ?_
      have hcut : cut n W (conf p0 p1 x (m.seq ++ [node])) = cut n W (conf p0 p1 x m.seq) + 2 * improve := by
        rw [conf_append, cut_update hg.sym hg.diag _ hn, himp]
      refine ⟨d2, by simpa using h.lenM, ?_, ?_, ?_, by simp [h.lenS], ?_, ?_, ?_⟩
      · rw [List.nodup_append]
        refine ⟨h.nodup, by simp, ?_⟩
        intro a ha b hb hab
        rw [List.mem_singleton] at hb
        subst hb hab
        exact hnotin ha
      · intro v hv
        rcases List.mem_append.mp hv with hv | hv
        · exact h.sub v hv
        · rw [List.mem_singleton] at hv
          subst hv
          exact hS
      · intro v hv
        simp only
        by_cases hvn : v = node
        · subst hvn
          rw [List.getElem?_set_self (by rw [h.lenM]; exact hn)]
          simp
        · rw [List.getElem?_set_ne (Ne.symm hvn), h.moved v hv]
          simp [hvn]
      · intro k hk
        simp only [List.length_append, List.length_singleton] at hk
        simp only
        rcases Nat.lt_or_ge k (m.seq.length + 1) with hlt | hge
        · rw [List.getElem?_append_left (by rw [h.lenS]; exact hlt), h.sums k (by omega), List.take_append_of_le_length (by omega)]
        · have : k = m.seq.length + 1 := by omega
          subst this
          rw [List.getElem?_append_right (by rw [h.lenS]), h.lenS, Nat.sub_self]
          have ht : (m.seq ++ [node]).take (m.seq.length + 1) = m.seq ++ [node] := by
            apply List.take_of_length_le
            simp
          rw [ht, hcut]
          simp only [List.getElem?_cons_zero, Option.some.injEq]
          ring
      · simp only [List.length_append, List.length_singleton, h.lenS]
        have := h.best
        split <;> omega
      · intro v hv hvs
        simp only [List.mem_append, List.mem_singleton, not_or] at hvs
        have hDold := h.D v hv hvs.1
        have hu := gain_update (n := n) (W := W) (x := x) (y := conf p0 p1 x m.seq) (u := node) (v := v) hg.diag hp.ne hn hvs.2
          (by simp [conf, hnotin]) (by simp [conf, hvs.1]) (hlab node hS).2 (hlab v hv).2
        simp only
        rw [conf_append, hu]
        have hmy : v ∈ (if node ∈ S0 then S0 else S1) ↔ x v = x node := by
          split
          · rename_i h0
            rw [hp.mem0 v, ((hp.mem0 node).mp h0).2]
            exact ⟨fun h => h.2, fun h => ⟨(hlab v hv).1, h⟩⟩
          · rename_i h0
            have h1 : node ∈ S1 := by rcases hS with h | h; exacts [absurd h h0, h]
            rw [hp.mem1 v, ((hp.mem1 node).mp h1).2]
            exact ⟨fun h => h.2, fun h => ⟨(hlab v hv).1, h⟩⟩
        by_cases hvnb : v ∈ nb.map Prod.fst
        · rw [d3 v _ hvnb hDold]
          simp only [hmy, hg.sym v node]
          split
          · congr 1; ring
          · rfl
        · rw [d4 v hvnb, hDold]
          have hw : W v node = 0 := by rw [hg.sym]; exact b3 v (hlab v hv).1 hvnb
          simp [hw]

/-! ### performing the moves -/

theorem flip_cases {p0 p1 q : Nat} (h : q = p0 ∨ q = p1) : flip p0 p1 q = p0 ∨ flip p0 p1 q = p1 := by
  unfold flip
  rcases h with h | h <;> subst h
  · simp
  · split <;> simp

theorem mem_insertSet {s : List Nat} {v w : Nat} : w ∈ insertSet s v ↔ w ∈ s ∨ w = v := by
  unfold insertSet
  split
  · constructor
    · exact Or.inl
    · rintro (h | rfl)
      · exact h
      · assumption
  · simp

theorem nodup_insertSet {s : List Nat} {v : Nat} (h : s.Nodup) : (insertSet s v).Nodup := by
  unfold insertSet
  split
  · exact h
  · rename_i hv
    rw [List.nodup_append]
    refine ⟨h, by simp, ?_⟩
    intro a ha b hb hab
    rw [List.mem_singleton] at hb
    subst hb hab
    exact hv ha

theorem pair_move {x : Nat → Nat} {p0 p1 : Nat} {S0 S1 : List Nat} (hp : Pair n x p0 p1 S0 S1) {v : Nat} (hv : v ∈ S0) :
    Pair n (conf p0 p1 x [v]) p0 p1 (S0.erase v) (insertSet S1 v) := by
  have hx := (hp.mem0 v).mp hv
  have hf : flip p0 p1 (x v) = p1 := by simp [flip, hx.2]
  refine ⟨hp.ne, hp.nodup0.erase v, nodup_insertSet hp.nodup1, ?_, ?_⟩
  · intro w
    rw [hp.nodup0.mem_erase_iff, hp.mem0]
    by_cases hw : w = v
    · subst hw; simp [conf, hf, hp.ne.symm]
    · simp [conf, hw]
  · intro w
    rw [mem_insertSet, hp.mem1]
    by_cases hw : w = v
    · subst hw; simp [conf, hf, hx.1]
    · simp [conf, hw]

theorem flip_swap (p0 p1 q : Nat) : flip p0 p1 q = flip p1 p0 q := by
  unfold flip
  split <;> split <;> simp_all

theorem conf_swap (p0 p1 : Nat) (x : Nat → Nat) (l : List Nat) : conf p0 p1 x l = conf p1 p0 x l := by
  funext v
  simp only [conf, flip_swap p0 p1]

theorem perform_spec {p0 p1 : Nat} : ∀ (l : List Nat) (x : Nat → Nat) (S0 S1 : List Nat), Pair n x p0 p1 S0 S1 → l.Nodup → (∀ v ∈ l, v ∈ S0 ∨ v ∈ S1) →
    Pair n (conf p0 p1 x l) p0 p1 (perform l (S0, S1)).1 (perform l (S0, S1)).2
  | [], x, S0, S1, hp, _, _ => by
    have : conf p0 p1 x [] = x := by funext v; simp [conf]
    rw [this]
    exact hp
  | v :: l, x, S0, S1, hp, hn, hs => by
    rw [List.nodup_cons] at hn
    have hc : conf p0 p1 (conf p0 p1 x [v]) l = conf p0 p1 x (v :: l) := by
      funext w
      by_cases hw : w = v
      · subst hw; simp [conf, hn.1]
      · simp [conf, hw]
    rw [← hc, perform]
    split
    · rename_i hv
      have hp' := pair_move hp hv
      refine perform_spec l _ _ _ hp' hn.2 ?_
      intro w hw
      have hne : w ≠ v := by rintro rfl; exact hn.1 hw
      rcases hs w (by simp [hw]) with h | h
      · exact Or.inl (hp.nodup0.mem_erase_iff.mpr ⟨hne, h⟩)
      · exact Or.inr (mem_insertSet.mpr (Or.inl h))
    · rename_i hv
      have hv1 : v ∈ S1 := by rcases hs v (by simp) with h | h; exacts [absurd h hv, h]
      have hp' := (pair_move hp.swap hv1).swap
      rw [← conf_swap] at hp'
      refine perform_spec l _ _ _ hp' hn.2 ?_
      intro w hw
      have hne : w ≠ v := by rintro rfl; exact hn.1 hw
      rcases hs w (by simp [hw]) with h | h
      · exact Or.inl (mem_insertSet.mpr (Or.inl h))
      · exact Or.inr (hp.nodup1.mem_erase_iff.mpr ⟨hne, h⟩)

/-- What a Kernighan-Lin step does to the labeling. -/
structure Step (n : Nat) (W : Nat → Nat → ℚ) (p0 p1 : Nat) (x x' : Nat → Nat) : Prop where
  other : ∀ v, x v ≠ p0 → x v ≠ p1 → x' v = x v
  outside : ∀ v, n ≤ v → x' v = x v
  inside : ∀ v, x v = p0 ∨ x v = p1 → x' v = p0 ∨ x' v = p1
  better : x' = x ∨ cut n W x' < cut n W x

theorem Step.refl (p0 p1 : Nat) (x : Nat → Nat) : Step n W p0 p1 x x := ⟨by simp, by simp, by simp, Or.inl rfl⟩

theorem Step.le {p0 p1 : Nat} {x x' : Nat → Nat} (h : Step n W p0 p1 x x') : cut n W x' ≤ cut n W x := by
  rcases h.better with h | h
  · rw [h]
  · exact le_of_lt h

theorem outerLoop_spec (hg : Graph n W st.neighbours st.edgeWeight) {iter : List Nat → List Nat} (hiter : ∀ l, (iter l).Perm l) {p0 p1 : Nat} :
    ∀ (k : Nat) (imp : ℚ) (x : Nat → Nat) (S0 S1 : List Nat), Pair n x p0 p1 S0 S1 →
    ∃ imp' S0' S1' x', outerLoop st n iter k imp S0 S1 = some (imp', S0', S1') ∧ Pair n x' p0 p1 S0' S1' ∧ Step n W p0 p1 x x' ∧
      imp' = imp + (cut n W x' - cut n W x) / 2
  | 0, imp, x, S0, S1, hp => ⟨imp, S0, S1, x, rfl, hp, Step.refl _ _ _, by simp⟩
  | k + 1, imp, x, S0, S1, hp => by
    obtain ⟨D0, a1, a2, a3, a4⟩ := fillD_spec hg hp (iter S0) (List.replicate n 0) (by simp) (fun v hv => (hiter S0).mem_iff.mp hv)
    obtain ⟨D, b1, b2, b3, b4⟩ := fillD_spec hg hp.swap (iter S1) D0 a2 (fun v hv => (hiter S1).mem_iff.mp hv)
    rw [outerLoop, a1, Option.bind_some, b1]
    simp only
    have hconf : conf p0 p1 x [] = x := by funext v; simp [conf]
    obtain ⟨m, e1, hm⟩ := movesLoop_spec hg hiter hp 1000 ⟨D, List.replicate n false, [], [0], 0⟩
      { lenD := b2
        lenM := by simp
        nodup := by simp
        sub := by simp
        moved := by intro v hv; simp [hv]
        lenS := by simp
        sums := by
          intro k hk
          have : k = 0 := by simpa using hk
          subst this
          simp [hconf]
        best := by simp
        D := by
          intro v hv _
          simp only [hconf]
          have hdis : ∀ v, v ∈ S0 → v ∉ S1 := by
            intro v h0 h1
            exact hp.ne (((hp.mem0 v).mp h0).2.symm.trans ((hp.mem1 v).mp h1).2)
          rcases hv with hv | hv
          · have hx := ((hp.mem0 v).mp hv).2
            rw [b4 v (fun h => hdis v hv ((hiter S1).mem_iff.mp h)), a3 v ((hiter S0).mem_iff.mpr hv)]
            simp [flip, hx]
          · have hx := ((hp.mem1 v).mp hv).2
            rw [b3 v ((hiter S1).mem_iff.mpr hv)]
            simp [flip, hx, hp.ne.symm] }
    rw [e1]
    simp only
    rw [hm.sums _ hm.best]
    simp only
    split
    · exact ⟨imp, S0, S1, x, rfl, hp, Step.refl _ _ _, by simp⟩
    · rename_i hle
      have hneg : cut n W (conf p0 p1 x (m.seq.take m.bestMove)) < cut n W x := by
        rw [not_lt] at hle
        have h0 : (-1 / 10 ^ 10 : ℚ) < 0 := by norm_num
        linarith
      have hp' := perform_spec (m.seq.take m.bestMove) x S0 S1 hp (hm.nodup.sublist (List.take_sublist _ _)) (fun v hv => hm.sub v (List.mem_of_mem_take hv))
      obtain ⟨imp', S0', S1', x', f1, f2, f3, f4⟩ := outerLoop_spec hg hiter k (imp + (cut n W (conf p0 p1 x (m.seq.take m.bestMove)) - cut n W x) / 2) _ _ _ hp'
      refine ⟨imp', S0', S1', x', f1, f2, ?_, ?_⟩
      · have hmem : ∀ v, v ∈ m.seq.take m.bestMove → v < n ∧ (x v = p0 ∨ x v = p1) := by
          intro v hv
          rcases hm.sub v (List.mem_of_mem_take hv) with h | h
          · exact ⟨((hp.mem0 v).mp h).1, Or.inl ((hp.mem0 v).mp h).2⟩
          · exact ⟨((hp.mem1 v).mp h).1, Or.inr ((hp.mem1 v).mp h).2⟩
        refine ⟨?_, ?_, ?_, ?_⟩
        · intro v h0 h1
          have hv : v ∉ m.seq.take m.bestMove := by
            intro h
            rcases (hmem v h).2 with h | h
            · exact h0 h
            · exact h1 h
          have hc : conf p0 p1 x (m.seq.take m.bestMove) v = x v := by simp only [conf, if_neg hv]
          rw [f3.other v (by rw [hc]; exact h0) (by rw [hc]; exact h1), hc]
        · intro v hv
          have hv' : v ∉ m.seq.take m.bestMove := by
            intro h
            have := (hmem v h).1
            omega
          rw [f3.outside v hv]
          simp only [conf, if_neg hv']
        · intro v hv
          apply f3.inside
          unfold conf
          split
          · exact flip_cases hv
          · exact hv
        · right
          exact lt_of_le_of_lt f3.le hneg
      · rw [f4]; ring

theorem solveBinaryKL_spec (hg : Graph n W st.neighbours st.edgeWeight) {iter : List Nat → List Nat} (hiter : ∀ l, (iter l).Perm l) {p0 p1 : Nat} {x : Nat → Nat} {S0 S1 : List Nat}
    (hp : Pair n x p0 p1 S0 S1) : ∃ imp S0' S1' x', solveBinaryKL st n iter S0 S1 = some (imp, S0', S1') ∧ Pair n x' p0 p1 S0' S1' ∧ Step n W p0 p1 x x' ∧
      imp = (cut n W x' - cut n W x) / 2 := by
  obtain ⟨a, b, c, d, h1, h2, h3, h4⟩ := outerLoop_spec hg hiter 100 0 x S0 S1 hp
  exact ⟨a, b, c, d, h1, h2, h3, by rw [h4]; ring⟩

end PartitionMove
end OpenGM
