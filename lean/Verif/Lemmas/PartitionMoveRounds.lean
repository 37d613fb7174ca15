import Verif.Lemmas.PartitionMoveKL
import Mathlib.Data.Fintype.BigOperators
import Mathlib.Data.Fintype.Card
import Mathlib.Data.Finset.Card
/-
PartitionMove: the rounds of `inferKL`.
-/
namespace OpenGM
namespace PartitionMove
open Finset

/-- The sets of a partition are the variables with the same label. -/
structure Rep (n : Nat) (ps : List (List Nat)) (x : Nat → Nat) : Prop where
  sets : ∀ (j : Nat) (S : List Nat), ps[j]? = some S → S.Nodup ∧ ∀ v, v ∈ S ↔ v < n ∧ x v = j
  range : ∀ v, v < n → x v < ps.length

variable {n : Nat} {W : Nat → Nat → ℚ} {st : State}

theorem Rep.pair {ps : List (List Nat)} {x : Nat → Nat} (h : Rep n ps x) {p0 p1 : Nat} {S0 S1 : List Nat} (hne : p0 ≠ p1) (h0 : ps[p0]? = some S0) (h1 : ps[p1]? = some S1) :
    Pair n x p0 p1 S0 S1 := ⟨hne, (h.sets p0 S0 h0).1, (h.sets p1 S1 h1).1, (h.sets p0 S0 h0).2, (h.sets p1 S1 h1).2⟩

theorem Step.iff {p0 p1 : Nat} {x x' : Nat → Nat} (h : Step n W p0 p1 x x') {j : Nat} (h0 : j ≠ p0) (h1 : j ≠ p1) (v : Nat) : x' v = j ↔ x v = j := by
  constructor
  · intro hj
    by_cases hx : x v = p0 ∨ x v = p1
    · rcases h.inside v hx with hp | hp
      · exact absurd (hj.symm.trans hp) h0
      · exact absurd (hj.symm.trans hp) h1
    · rw [not_or] at hx
      rw [← h.other v hx.1 hx.2]; exact hj
  · intro hj
    rw [h.other v (by rw [hj]; exact h0) (by rw [hj]; exact h1)]; exact hj

theorem Step.bound {p0 p1 : Nat} {x x' : Nat → Nat} (h : Step n W p0 p1 x x') {L : Nat} (h0 : p0 < L) (h1 : p1 < L) (v : Nat) (hv : x v < L) : x' v < L := by
  by_cases hx : x v = p0 ∨ x v = p1
  · rcases h.inside v hx with hp | hp <;> omega
  · rw [not_or] at hx
    rw [h.other v hx.1 hx.2]; exact hv

theorem Rep.step {ps : List (List Nat)} {x x' : Nat → Nat} (h : Rep n ps x) {p0 p1 : Nat} {S0 S1 : List Nat} (h0 : p0 < ps.length) (h1 : p1 < ps.length)
    (hp : Pair n x' p0 p1 S0 S1) (hs : Step n W p0 p1 x x') : Rep n ((ps.set p0 S0).set p1 S1) x' := by
  refine ⟨?_, ?_⟩
  · intro j S hS
    by_cases hj1 : j = p1
    · subst hj1
      rw [List.getElem?_set_self (by simpa using h1)] at hS
      rw [← Option.some.inj hS]
      exact ⟨hp.nodup1, hp.mem1⟩
    · rw [List.getElem?_set_ne (Ne.symm hj1)] at hS
      by_cases hj0 : j = p0
      · subst hj0
        rw [List.getElem?_set_self (by simpa using h0)] at hS
        rw [← Option.some.inj hS]
        exact ⟨hp.nodup0, hp.mem0⟩
      · rw [List.getElem?_set_ne (Ne.symm hj0)] at hS
        refine ⟨(h.sets j S hS).1, fun v => ?_⟩
        rw [(h.sets j S hS).2, hs.iff hj0 hj1]
  · intro v hv
    simp only [List.length_set]
    exact hs.bound h0 h1 v (h.range v hv)

theorem pairLoop_spec (hg : Graph n W st.neighbours st.edgeWeight) {iter : List Nat → List Nat} (hiter : ∀ l, (iter l).Perm l) (part0 : Nat) :
    ∀ (parts : List Nat) (ps : List (List Nat)) (change : Bool) (x : Nat → Nat), Rep n ps x → part0 < ps.length → (∀ q ∈ parts, part0 < q ∧ q < ps.length) →
    ∃ ps' change' x', pairLoop st n iter part0 parts ps change = some (ps', change') ∧ Rep n ps' x' ∧ ps'.length = ps.length ∧ cut n W x' ≤ cut n W x ∧
      (change' = true → change = true ∨ cut n W x' < cut n W x)
  | [], ps, change, x, h, _, _ => ⟨ps, change, x, rfl, h, rfl, le_refl _, Or.inl⟩
  | part1 :: parts, ps, change, x, h, h0, hq => by
    obtain ⟨hlt, h1⟩ := hq part1 (by simp)
    have hrest : ∀ q ∈ parts, part0 < q ∧ q < ps.length := fun q h => hq q (by simp [h])
    have e0 : ps[part0]? = some (ps[part0]'h0) := List.getElem?_eq_getElem _
    have e1 : ps[part1]? = some (ps[part1]'h1) := List.getElem?_eq_getElem _
    rw [pairLoop, e0, e1]
    simp only
    split
    · exact pairLoop_spec hg hiter part0 parts ps change x h h0 hrest
    · obtain ⟨imp, S0', S1', x1, k1, k2, k3, k4⟩ := solveBinaryKL_spec hg hiter (h.pair (Nat.ne_of_lt hlt) e0 e1)
      rw [k1]
      simp only
      rw [setAt_of_lt _ h0, Option.bind_some, setAt_of_lt _ (by simpa using h1)]
      simp only
      obtain ⟨ps', change', x', r1, r2, r3, r4, r5⟩ := pairLoop_spec hg hiter part0 parts ((ps.set part0 S0').set part1 S1')
        (if -1 / 10 ^ 8 > imp then true else change) x1 (h.step h0 h1 k2 k3) (by simpa using h0) (by simpa using hrest)
      refine ⟨ps', change', x', r1, r2, by simpa using r3, le_trans r4 k3.le, ?_⟩
      intro hc
      rcases r5 hc with hc | hc
      · split at hc
        · rename_i himp
          right
          have h0 : (-1 / 10 ^ 8 : ℚ) < 0 := by norm_num
          have : imp < 0 := lt_trans himp h0
          linarith
        · exact Or.inl hc
      · exact Or.inr (lt_of_lt_of_le hc k3.le)

theorem mem_insertSorted {a y : Nat} : ∀ {l : List Nat}, y ∈ insertSorted a l → y = a ∨ y ∈ l
  | [], h => by simpa [insertSorted] using h
  | b :: l, h => by
    rw [insertSorted] at h
    split at h
    · simpa using h
    · split at h
      · rcases List.mem_cons.mp h with h | h
        · exact Or.inr (by simp [h])
        · rcases mem_insertSorted h with h | h
          · exact Or.inl h
          · exact Or.inr (by simp [h])
      · exact Or.inr h

theorem neighbourParts_spec (states : List Nat) (part0 L : Nat) (hst : ∀ v, v < n → ∃ s, states[v]? = some s ∧ s < L) : ∀ (nb : List (Nat × Nat)) (acc : List Nat),
    (∀ e ∈ nb, e.1 < n) → (∀ q ∈ acc, part0 < q ∧ q < L) → ∃ r, neighbourParts states part0 nb acc = some r ∧ ∀ q ∈ r, part0 < q ∧ q < L
  | [], acc, _, ha => ⟨acc, rfl, ha⟩
  | (v, e) :: nb, acc, hnb, ha => by
    obtain ⟨s, hs, hsL⟩ := hst v (hnb (v, e) (by simp))
    rw [neighbourParts, hs]
    simp only
    refine neighbourParts_spec states part0 L hst nb _ (fun e he => hnb e (by simp [he])) ?_
    intro q hq
    split at hq
    · rcases mem_insertSorted hq with rfl | hq
      · exact ⟨by assumption, hsL⟩
      · exact ha q hq
    · exact ha q hq

theorem neighbourSets_spec (hg : Graph n W st.neighbours st.edgeWeight) (part0 L : Nat) (hst : ∀ v, v < n → ∃ s, st.states[v]? = some s ∧ s < L) :
    ∀ (nodes : List Nat) (acc : List Nat), (∀ v ∈ nodes, v < n) → (∀ q ∈ acc, part0 < q ∧ q < L) →
    ∃ r, neighbourSets st part0 nodes acc = some r ∧ ∀ q ∈ r, part0 < q ∧ q < L
  | [], acc, _, ha => ⟨acc, rfl, ha⟩
  | v :: nodes, acc, hv, ha => by
    obtain ⟨nb, hnb⟩ := hg.get (hv v (by simp))
    obtain ⟨r, h1, h2⟩ := neighbourParts_spec st.states part0 L hst nb acc (fun e he => ((hg.nb v nb hnb).2.1 e he).1) ha
    rw [neighbourSets, hnb]
    simp only
    rw [h1]
    simp only
    exact neighbourSets_spec hg part0 L hst nodes r (fun w hw => hv w (by simp [hw])) h2

theorem allPairs_spec (hg : Graph n W st.neighbours st.edgeWeight) {iter : List Nat → List Nat} (hiter : ∀ l, (iter l).Perm l) (L : Nat)
    (hst : ∀ v, v < n → ∃ s, st.states[v]? = some s ∧ s < L) :
    ∀ (parts : List Nat) (ps : List (List Nat)) (change : Bool) (x : Nat → Nat), Rep n ps x → ps.length = L → (∀ q ∈ parts, q < L) →
    ∃ ps' change' x', allPairs st n iter parts ps change = some (ps', change') ∧ Rep n ps' x' ∧ ps'.length = L ∧ cut n W x' ≤ cut n W x ∧
      (change' = true → change = true ∨ cut n W x' < cut n W x)
  | [], ps, change, x, h, hL, _ => ⟨ps, change, x, rfl, h, hL, le_refl _, Or.inl⟩
  | part0 :: parts, ps, change, x, h, hL, hq => by
    have h0 : part0 < ps.length := by rw [hL]; exact hq part0 (by simp)
    have e0 : ps[part0]? = some (ps[part0]'h0) := List.getElem?_eq_getElem _
    obtain ⟨nbs, a1, a2⟩ := neighbourSets_spec hg part0 L hst (iter (ps[part0]'h0)) []
      (fun v hv => (((h.sets part0 _ e0).2 v).mp ((hiter _).mem_iff.mp hv)).1) (by simp)
    rw [allPairs, e0]
    simp only
    rw [a1]
    simp only
    obtain ⟨ps1, c1, x1, b1, b2, b3, b4, b5⟩ := pairLoop_spec hg hiter part0 nbs ps change x h h0 (by rw [hL]; exact a2)
    rw [b1]
    simp only
    obtain ⟨ps', c', x', r1, r2, r3, r4, r5⟩ := allPairs_spec hg hiter L hst parts ps1 c1 x1 b2 (b3.trans hL) (fun q h => hq q (by simp [h]))
    refine ⟨ps', c', x', r1, r2, r3, le_trans r4 b4, fun hc => ?_⟩
    rcases r5 hc with hc | hc
    · rcases b5 hc with hc | hc
      · exact Or.inl hc
      · exact Or.inr (lt_of_le_of_lt r4 hc)
    · exact Or.inr (lt_of_lt_of_le hc b4)

/-! ### splitting -/

theorem splitLoop_spec (hg : Graph n W st.neighbours st.edgeWeight) {iter : List Nat → List Nat} (hiter : ∀ l, (iter l).Perm l) :
    ∀ (parts : List Nat) (ps : List (List Nat)) (prune : List Nat) (change : Bool) (x : Nat → Nat), Rep n ps x → (∀ q ∈ parts, q < ps.length) → parts.Pairwise (· < ·) →
    prune.Pairwise (· < ·) → (∀ a ∈ prune, ∀ b ∈ parts, a < b) → (∀ j : Nat, ps[j]? = some [] → j ∈ prune ∨ j ∈ parts) → (∀ j ∈ prune, ps[j]? = some []) →
    ∃ ps' prune' change' x', splitLoop st n iter parts ps prune change = some (ps', prune', change') ∧ Rep n ps' x' ∧ cut n W x' ≤ cut n W x ∧
      (change' = true → change = true ∨ cut n W x' < cut n W x) ∧ prune'.Pairwise (· < ·) ∧ ∀ j : Nat, ps'[j]? = some [] ↔ j ∈ prune'
  | [], ps, prune, change, x, h, _, _, hp, _, he, he' =>
    ⟨ps, prune, change, x, rfl, h, le_refl _, Or.inl, hp, fun j => ⟨fun hj => by simpa using he j hj, he' j⟩⟩
  | part0 :: parts, ps, prune, change, x, h, hq, hsort, hp, hlt, he, he' => by
    have h0 : part0 < ps.length := hq part0 (by simp)
    have e0 : ps[part0]? = some (ps[part0]'h0) := List.getElem?_eq_getElem _
    have hrest : ∀ q ∈ parts, q < ps.length := fun q h => hq q (by simp [h])
    rw [List.pairwise_cons] at hsort
    have hlt' : ∀ a ∈ prune, ∀ b ∈ parts, a < b := fun a ha b hb => hlt a ha b (by simp [hb])
    have hnotprune : part0 ∉ prune := fun hm => by have := hlt part0 hm part0 (by simp); omega
    rw [splitLoop, e0]
    simp only
    split
    · rename_i hlen
      have hnil : ps[part0]? = some [] := by rw [e0, List.length_eq_zero_iff.mp hlen]
      refine splitLoop_spec hg hiter parts ps (prune ++ [part0]) change x h hrest hsort.2 ?_ ?_ ?_ ?_
      · rw [List.pairwise_append]
        refine ⟨hp, by simp, fun a ha b hb => ?_⟩
        rw [List.mem_singleton] at hb
        subst hb
        exact hlt a ha b (by simp)
      · intro a ha b hb
        rcases List.mem_append.mp ha with ha | ha
        · exact hlt' a ha b hb
        · rw [List.mem_singleton] at ha
          subst ha
          exact hsort.1 b hb
      · intro j hj
        rcases he j hj with hj | hj
        · exact Or.inl (by simp [hj])
        · rcases List.mem_cons.mp hj with hj | hj
          · exact Or.inl (by simp [hj])
          · exact Or.inr hj
      · intro j hj
        rcases List.mem_append.mp hj with hj | hj
        · exact he' j hj
        · rw [List.mem_singleton] at hj
          subst hj
          exact hnil
    · rename_i hlen
      have hkeep : ∀ j : Nat, ps[j]? = some [] → j ∈ prune ∨ j ∈ parts := by
        intro j hj
        rcases he j hj with h' | h'
        · exact Or.inl h'
        · rcases List.mem_cons.mp h' with h' | h'
          · subst h'
            rw [e0] at hj
            exact absurd (by rw [Option.some.inj hj]; rfl) hlen
          · exact Or.inr h'
      split
      · have hpair : Pair n x part0 ps.length (ps[part0]'h0) [] := by
          refine ⟨Nat.ne_of_lt h0, (h.sets part0 _ e0).1, by simp, (h.sets part0 _ e0).2, fun v => ?_⟩
          constructor
          · intro hv; simp at hv
          · rintro ⟨hv, hx⟩
            have := h.range v hv
            omega
        obtain ⟨imp, S0', S1', x1, k1, k2, k3, k4⟩ := solveBinaryKL_spec hg hiter hpair
        have hS0 : S0' ≠ [] := by
          intro hnil
          have hmem : ∀ v, v < n → x1 v ≠ part0 := by
            intro v hv hx
            have := (k2.mem0 v).mpr ⟨hv, hx⟩
            rw [hnil] at this
            simp at this
          have hval : ∀ v, v < n → x1 v = if x v = part0 then ps.length else x v := by
            intro v hv
            have hxl := h.range v hv
            split
            · rename_i hx
              rcases k3.inside v (Or.inl hx) with h' | h'
              · exact absurd h' (hmem v hv)
              · exact h'
            · rename_i hx
              exact k3.other v hx (by omega)
          have hcut : cut n W x1 = cut n W x := by
            apply cut_congr
            intro u v hu hv
            rw [hval u hu, hval v hv]
            have h1 := h.range u hu
            have h2 := h.range v hv
            split <;> split <;> omega
          have hx1 : x1 = x := by
            rcases k3.better with h' | h'
            · exact h'
            · rw [hcut] at h'; exact absurd h' (lt_irrefl _)
          obtain ⟨v, hv⟩ := List.exists_mem_of_length_pos (Nat.pos_of_ne_zero hlen)
          have := (hpair.mem0 v).mp hv
          exact hmem v this.1 (by rw [hx1]; exact this.2)
        rw [k1]
        simp only
        rw [setAt_of_lt _ h0]
        simp only
        have hset : ∀ (j : Nat) S, (ps.set part0 S0')[j]? = some S → S.Nodup ∧ ∀ v, v ∈ S ↔ v < n ∧ x1 v = j := by
          intro j S hS
          by_cases hj : j = part0
          · subst hj
            rw [List.getElem?_set_self h0] at hS
            rw [← Option.some.inj hS]
            exact ⟨k2.nodup0, k2.mem0⟩
          · rw [List.getElem?_set_ne (Ne.symm hj)] at hS
            refine ⟨(h.sets j S hS).1, fun v => ?_⟩
            have hjl : j ≠ ps.length := by
              have := (List.getElem?_eq_some_iff.mp hS).1
              omega
            rw [(h.sets j S hS).2, k3.iff hj hjl]
        have hempty : ∀ j : Nat, (ps.set part0 S0')[j]? = some [] → j ∈ prune ∨ j ∈ parts := by
          intro j hj
          by_cases hj0 : j = part0
          · subst hj0
            rw [List.getElem?_set_self h0] at hj
            exact absurd (Option.some.inj hj) hS0
          · rw [List.getElem?_set_ne (Ne.symm hj0)] at hj
            exact hkeep j hj
        have hempty' : ∀ j ∈ prune, (ps.set part0 S0')[j]? = some [] := by
          intro j hj
          have : j ≠ part0 := by rintro rfl; exact hnotprune hj
          rw [List.getElem?_set_ne (Ne.symm this)]
          exact he' j hj
        have hbound : ∀ v, v < n → x1 v < ps.length + 1 := by
          intro v hv
          refine k3.bound (by omega) (by omega) v ?_
          have := h.range v hv
          omega
        split
        · rename_i hpos
          have hrep : Rep n (ps.set part0 S0' ++ [S1']) x1 := by
            refine ⟨?_, fun v hv => by simpa using hbound v hv⟩
            intro j S hS
            rcases Nat.lt_or_ge j ps.length with hj | hj
            · rw [List.getElem?_append_left (by simpa using hj)] at hS
              exact hset j S hS
            · rw [List.getElem?_append_right (by simpa using hj)] at hS
              simp only [List.length_set] at hS
              have hjl := (List.getElem?_eq_some_iff.mp hS).1
              simp only [List.length_singleton] at hjl
              have hj' : j = ps.length := by omega
              subst hj'
              rw [Nat.sub_self] at hS
              simp only [List.getElem?_cons_zero, Option.some.injEq] at hS
              rw [← hS]
              exact ⟨k2.nodup1, k2.mem1⟩
          have hstrict : cut n W x1 < cut n W x := by
            rcases k3.better with h' | h'
            · obtain ⟨v, hv⟩ := List.exists_mem_of_length_pos hpos
              obtain ⟨hvn, hx⟩ := (k2.mem1 v).mp hv
              have := h.range v hvn
              rw [h'] at hx
              omega
            · exact h'
          obtain ⟨ps', prune', c', x', r1, r2, r3, r4, r5, r6⟩ := splitLoop_spec hg hiter parts (ps.set part0 S0' ++ [S1']) prune true x1 hrep
            (fun q hq => by have := hrest q hq; simp; omega) hsort.2 hp hlt'
            (by
              intro j hj
              rcases Nat.lt_or_ge j ps.length with hjl | hjl
              · rw [List.getElem?_append_left (by simpa using hjl)] at hj
                exact hempty j hj
              · rw [List.getElem?_append_right (by simpa using hjl)] at hj
                simp only [List.length_set] at hj
                have hjl' := (List.getElem?_eq_some_iff.mp hj).1
                simp only [List.length_singleton] at hjl'
                have hj0 : j - ps.length = 0 := by omega
                rw [hj0] at hj
                simp only [List.getElem?_cons_zero, Option.some.injEq] at hj
                rw [hj] at hpos
                simp at hpos)
            (by
              intro j hj
              have := hempty' j hj
              rw [List.getElem?_append_left (List.getElem?_eq_some_iff.mp this).1]
              exact this)
          exact ⟨ps', prune', c', x', r1, r2, le_trans r3 k3.le, fun _ => Or.inr (lt_of_le_of_lt r3 hstrict), r5, r6⟩
        · rename_i hpos
          have hnil : S1' = [] := by rw [← List.length_eq_zero_iff]; omega
          have hrep : Rep n (ps.set part0 S0') x1 := by
            refine ⟨hset, fun v hv => ?_⟩
            have h1 := hbound v hv
            have h2 : x1 v ≠ ps.length := by
              intro hx
              have := (k2.mem1 v).mpr ⟨hv, hx⟩
              rw [hnil] at this
              simp at this
            simp only [List.length_set]
            omega
          obtain ⟨ps', prune', c', x', r1, r2, r3, r4, r5, r6⟩ := splitLoop_spec hg hiter parts (ps.set part0 S0') prune change x1 hrep
            (by simpa using hrest) hsort.2 hp hlt' hempty hempty'
          refine ⟨ps', prune', c', x', r1, r2, le_trans r3 k3.le, fun hc => ?_, r5, r6⟩
          rcases r4 hc with h' | h'
          · exact Or.inl h'
          · exact Or.inr (lt_of_lt_of_le h' k3.le)
      · exact splitLoop_spec hg hiter parts ps prune change x h hrest hsort.2 hp hlt' hkeep he'

/-! ### pruning -/

theorem pruneLoop_spec : ∀ (l : List Nat) (ps : List (List Nat)) (x : Nat → Nat), Rep n ps x → l.Pairwise (· > ·) → (∀ j : Nat, ps[j]? = some [] ↔ j ∈ l) →
    ∃ ps' x', pruneLoop l ps = some ps' ∧ Rep n ps' x' ∧ (∀ j : Nat, ps'[j]? ≠ some []) ∧ ∀ u v, u < n → v < n → (x' u = x' v ↔ x u = x v)
  | [], ps, x, h, _, he => ⟨ps, x, rfl, h, fun j hj => by have := (he j).mp hj; simp at this, fun _ _ _ _ => Iff.rfl⟩
  | part :: l, ps, x, h, hs, he => by
    rw [List.pairwise_cons] at hs
    have hpart : ps[part]? = some [] := (he part).mpr (by simp)
    have hlen := (List.getElem?_eq_some_iff.mp hpart).1
    have hne : ∀ v, v < n → x v ≠ part := by
      intro v hv hx
      have := ((h.sets part [] hpart).2 v).mpr ⟨hv, hx⟩
      simp at this
    have hrep : Rep n (ps.eraseIdx part) (fun v => if part < x v then x v - 1 else x v) := by
      refine ⟨?_, ?_⟩
      · intro j S hS
        rw [List.getElem?_eraseIdx] at hS
        split at hS
        · rename_i hj
          refine ⟨(h.sets j S hS).1, fun v => ?_⟩
          rw [(h.sets j S hS).2]
          refine and_congr_right (fun hv => ?_)
          have := hne v hv
          split <;> omega
        · rename_i hj
          refine ⟨(h.sets (j + 1) S hS).1, fun v => ?_⟩
          rw [(h.sets (j + 1) S hS).2]
          refine and_congr_right (fun hv => ?_)
          have := hne v hv
          split <;> omega
      · intro v hv
        have h1 := h.range v hv
        have h2 := hne v hv
        rw [List.length_eraseIdx, if_pos hlen]
        split <;> omega
    obtain ⟨ps', x', r1, r2, r3, r4⟩ := pruneLoop_spec l (ps.eraseIdx part) _ hrep hs.2 (by
      intro j
      rw [List.getElem?_eraseIdx]
      split
      · rename_i hj
        rw [he]
        simp only [List.mem_cons]
        constructor
        · rintro (rfl | h')
          · omega
          · exact h'
        · exact Or.inr
      · rename_i hj
        rw [he]
        simp only [List.mem_cons]
        constructor
        · rintro (h' | h')
          · omega
          · have := hs.1 _ h'; omega
        · intro h'
          have := hs.1 _ h'
          omega)
    rw [pruneLoop, if_pos hlen]
    refine ⟨ps', x', r1, r2, r3, fun u v hu hv => ?_⟩
    rw [r4 u v hu hv]
    have h1 := hne u hu
    have h2 := hne v hv
    split <;> split <;> omega

/-! ### the new labels -/

theorem labelSet_spec (x : Nat → Nat) (part : Nat) : ∀ (S : List Nat) (states : List Nat), states.length = n → (∀ v ∈ S, v < n ∧ x v = part) →
    ∃ states', labelSet part S states = some states' ∧ states'.length = n ∧ ∀ v, v ∈ S ∨ states[v]? = some (x v) → states'[v]? = some (x v)
  | [], states, hl, _ => ⟨states, rfl, hl, by simp⟩
  | v :: S, states, hl, hS => by
    obtain ⟨hv, hx⟩ := hS v (by simp)
    rw [labelSet, setAt_of_lt _ (by omega)]
    simp only
    obtain ⟨s', h1, h2, h3⟩ := labelSet_spec x part S (states.set v part) (by simpa using hl) (fun w hw => hS w (by simp [hw]))
    refine ⟨s', h1, h2, fun w hw => h3 w ?_⟩
    by_cases hwv : w = v
    · subst hwv
      right
      rw [List.getElem?_set_self (by omega), hx]
    · rcases hw with hw | hw
      · exact Or.inl (by simpa [hwv] using hw)
      · right
        rw [List.getElem?_set_ne (Ne.symm hwv)]
        exact hw

theorem labelAll_spec (x : Nat → Nat) : ∀ (ps : List (List Nat)) (part : Nat) (states : List Nat), states.length = n →
    (∀ (j : Nat) S, ps[j]? = some S → ∀ v ∈ S, v < n ∧ x v = part + j) →
    ∃ states', labelAll ps part states = some states' ∧ states'.length = n ∧ ∀ v, (∃ S ∈ ps, v ∈ S) ∨ states[v]? = some (x v) → states'[v]? = some (x v)
  | [], _, states, hl, _ => ⟨states, rfl, hl, by simp⟩
  | S :: ps, part, states, hl, hS => by
    obtain ⟨s1, h1, h2, h3⟩ := labelSet_spec x part S states hl (fun v hv => by simpa using hS 0 S rfl v hv)
    obtain ⟨s2, k1, k2, k3⟩ := labelAll_spec x ps (part + 1) s1 h2 (fun j S' hS' v hv => by
      have := hS (j + 1) S' (by simpa using hS') v hv
      omega)
    rw [labelAll, h1]
    simp only
    refine ⟨s2, k1, k2, fun v hv => k3 v ?_⟩
    rcases hv with ⟨T, hT, hv⟩ | hv
    · rcases List.mem_cons.mp hT with rfl | hT
      · exact Or.inr (h3 v (Or.inl hv))
      · exact Or.inl ⟨T, hT, hv⟩
    · exact Or.inr (h3 v (Or.inr hv))

/-- The labels of the state. -/
structure Labels (n : Nat) (states : List Nat) (x : Nat → Nat) : Prop where
  len : states.length = n
  get : ∀ v, v < n → states[v]? = some (x v)

theorem rep_length {ps : List (List Nat)} {x : Nat → Nat} (h : Rep n ps x) (hne : ∀ j : Nat, ps[j]? ≠ some []) : ps.length ≤ n := by
  have hsurj : Set.SurjOn x (range n : Set Nat) (range ps.length : Set Nat) := by
    intro j hj
    have hj' : j < ps.length := by simpa using hj
    have e : ps[j]? = some (ps[j]'hj') := List.getElem?_eq_getElem _
    cases hS : ps[j]'hj' with
    | nil => exact absurd (by rw [e, hS]) (hne j)
    | cons v S =>
      have := ((h.sets j _ e).2 v).mp (by rw [hS]; simp)
      exact ⟨v, by simpa using this.1, this.2⟩
  have := Finset.card_le_card_of_surjOn x hsurj
  simpa using this

theorem round_spec (hg : Graph n W st.neighbours st.edgeWeight) {iter : List Nat → List Nat} (hiter : ∀ l, (iter l).Perm l) {ps : List (List Nat)} {x : Nat → Nat}
    (h : Rep n ps x) (hl : Labels n st.states x) : ∃ states' ps' change x', round n iter st ps = some ({ st with states := states' }, ps', change) ∧ Rep n ps' x' ∧
      Labels n states' x' ∧ (∀ v, v < n → x' v < n) ∧ cut n W x' ≤ cut n W x ∧ (change = true → cut n W x' < cut n W x) := by
  obtain ⟨ps1, c1, x1, a1, a2, a3, a4, a5⟩ := allPairs_spec hg hiter ps.length (fun v hv => ⟨x v, hl.get v hv, h.range v hv⟩) (List.range ps.length) ps false x h rfl
    (fun q hq => List.mem_range.mp hq)
  obtain ⟨ps2, prune, c2, x2, b1, b2, b3, b4, b5, b6⟩ := splitLoop_spec hg hiter (List.range ps.length) ps1 [] c1 x1 a2
    (fun q hq => by rw [a3]; exact List.mem_range.mp hq) List.pairwise_lt_range (by simp) (by simp)
    (fun j hj => Or.inr (by
      have := (List.getElem?_eq_some_iff.mp hj).1
      rw [a3] at this
      exact List.mem_range.mpr this)) (by simp)
  obtain ⟨ps3, x3, d1, d2, d3, d4⟩ := pruneLoop_spec prune.reverse ps2 x2 b2 (by rw [List.pairwise_reverse]; exact b5) (fun j => by rw [b6, List.mem_reverse])
  obtain ⟨states', e1, e2, e3⟩ := labelAll_spec (n := n) x3 (ps3.map iter) 0 st.states hl.len (by
    intro j S hS v hv
    rw [List.getElem?_map, Option.map_eq_some_iff] at hS
    obtain ⟨T, hT, rfl⟩ := hS
    have := ((d2.sets j T hT).2 v).mp ((hiter T).mem_iff.mp hv)
    exact ⟨this.1, by omega⟩)
  have hcut : cut n W x3 = cut n W x2 := cut_congr d4
  refine ⟨states', ps3, c2, x3, ?_, d2, ⟨e2, fun v hv => e3 v (Or.inl ?_)⟩, ?_, ?_, ?_⟩
  · unfold round
    simp only [a1, b1, d1, e1]
  · have e : ps3[x3 v]? = some (ps3[x3 v]'(d2.range v hv)) := List.getElem?_eq_getElem _
    refine ⟨iter (ps3[x3 v]'(d2.range v hv)), List.mem_map.mpr ⟨_, List.mem_of_getElem? e, rfl⟩, (hiter _).mem_iff.mpr (((d2.sets _ _ e).2 v).mpr ⟨hv, rfl⟩)⟩
  · intro v hv
    exact lt_of_lt_of_le (d2.range v hv) (rep_length d2 d3)
  · rw [hcut]
    exact le_trans b3 a4
  · intro hc
    rw [hcut]
    rcases b4 hc with h' | h'
    · rcases a5 h' with h'' | h''
      · exact absurd h'' (by simp)
      · exact lt_of_le_of_lt b3 h''
    · exact lt_of_lt_of_le h' a4

/-! ### termination -/

/-- A labeling as a function on all numbers. -/
def extend (y : Fin n → Fin n) (v : Nat) : Nat := if h : v < n then (y ⟨v, h⟩).val else 0

/-- The labelings that are better than `x`. -/
def betterSet (n : Nat) (W : Nat → Nat → ℚ) (x : Nat → Nat) : Finset (Fin n → Fin n) := Finset.univ.filter (fun y => cut n W (extend y) < cut n W x)

theorem betterSet_card (x : Nat → Nat) : (betterSet n W x).card ≤ n ^ n := by
  refine le_trans (Finset.card_le_univ _) ?_
  simp

theorem betterSet_lt {x x' : Nat → Nat} (hx : ∀ v, v < n → x' v < n) (h : cut n W x' < cut n W x) : (betterSet n W x').card < (betterSet n W x).card := by
  apply Finset.card_lt_card
  rw [Finset.ssubset_iff_of_subset]
  · refine ⟨fun v => ⟨x' v.val, hx v.val v.isLt⟩, ?_, ?_⟩
    all_goals
      have he : cut n W (extend fun v : Fin n => (⟨x' v.val, hx v.val v.isLt⟩ : Fin n)) = cut n W x' := by
        apply cut_congr
        intro u v hu hv
        simp [extend, hu, hv]
      simp only [betterSet, Finset.mem_filter, Finset.mem_univ, true_and, he]
    · exact h
    · exact lt_irrefl _
  · intro y hy
    simp only [betterSet, Finset.mem_filter, Finset.mem_univ, true_and] at hy ⊢
    exact lt_trans hy h

theorem mainLoop_spec {iter : List Nat → List Nat} (hiter : ∀ l, (iter l).Perm l) (visit : Nat → Bool) : ∀ (fuel i : Nat) (st : State) (ps : List (List Nat)) (x : Nat → Nat),
    Graph n W st.neighbours st.edgeWeight → Rep n ps x → Labels n st.states x → (betterSet n W x).card < fuel →
    ∃ states' x', mainLoop n iter fuel visit i st ps = some { st with states := states' } ∧ Labels n states' x' ∧ (∀ v, v < n → x' v < n) ∧ cut n W x' ≤ cut n W x
  | 0, _, _, _, _, _, _, _, hf => absurd hf (Nat.not_lt_zero _)
  | fuel + 1, i, st, ps, x, hg, h, hl, hf => by
    obtain ⟨s1, ps1, c, x1, a1, a2, a3, a4, a5, a6⟩ := round_spec hg hiter h hl
    rw [mainLoop, a1]
    simp only
    split
    · rename_i hc
      rw [Bool.and_eq_true] at hc
      have hlt := betterSet_lt (n := n) (W := W) a4 (a6 hc.2)
      obtain ⟨s2, x2, b1, b2, b3, b4⟩ := mainLoop_spec hiter visit fuel (i + 1) { st with states := s1 } ps1 x1 hg a2 a3 (by omega)
      exact ⟨s2, x2, b1, b2, b3, le_trans b4 a5⟩
    · exact ⟨s1, x1, rfl, a3, a4, a5⟩

/-! ### inferKL -/

theorem numberOfPartitions_spec (states : List Nat) : ∀ m, (∀ s ∈ states, s < states.foldl (fun m s => if s + 1 > m then s + 1 else m) m) ∧
    m ≤ states.foldl (fun m s => if s + 1 > m then s + 1 else m) m := by
  induction states with
  | nil => intro m; simp
  | cons s states ih =>
    intro m
    rw [List.foldl_cons]
    obtain ⟨h1, h2⟩ := ih (if s + 1 > m then s + 1 else m)
    refine ⟨?_, ?_⟩
    · intro t ht
      rcases List.mem_cons.mp ht with rfl | ht
      · split at h2 <;> rename_i hc <;> simp only [hc, if_true, if_false] <;> omega
      · exact h1 t ht
    · split at h2 <;> rename_i hc <;> simp only [hc, if_true, if_false] <;> omega

theorem fillSets_spec (x : Nat → Nat) : ∀ (states : List Nat) (i : Nat) (ps : List (List Nat)), Rep i ps x →
    (∀ k, k < states.length → states[k]? = some (x (i + k)) ∧ x (i + k) < ps.length) →
    ∃ ps', fillSets states i ps = some ps' ∧ Rep (i + states.length) ps' x
  | [], i, ps, h, _ => ⟨ps, rfl, by simpa using h⟩
  | s :: states, i, ps, h, hs => by
    obtain ⟨h0, h1⟩ := hs 0 (by simp)
    simp only [List.getElem?_cons_zero, Nat.add_zero, Option.some.injEq] at h0 h1
    subst h0
    have e : ps[x i]? = some (ps[x i]'h1) := List.getElem?_eq_getElem _
    rw [fillSets, e]
    simp only
    rw [setAt_of_lt _ h1]
    simp only
    obtain ⟨ps', r1, r2⟩ := fillSets_spec x states (i + 1) (ps.set (x i) (insertSet (ps[x i]'h1) i)) (by
      refine ⟨?_, ?_⟩
      · intro j S hS
        by_cases hj : j = x i
        · subst hj
          rw [List.getElem?_set_self h1] at hS
          rw [← Option.some.inj hS]
          refine ⟨nodup_insertSet (h.sets _ _ e).1, fun v => ?_⟩
          rw [mem_insertSet, (h.sets _ _ e).2]
          constructor
          · rintro (h' | h')
            · exact ⟨by omega, h'.2⟩
            · subst h'; exact ⟨by omega, rfl⟩
          · rintro ⟨h1, h2⟩
            by_cases hv : v = i
            · exact Or.inr hv
            · exact Or.inl ⟨by omega, h2⟩
        · rw [List.getElem?_set_ne (Ne.symm hj)] at hS
          refine ⟨(h.sets j S hS).1, fun v => ?_⟩
          rw [(h.sets j S hS).2]
          constructor
          · rintro ⟨h1, h2⟩
            exact ⟨by omega, h2⟩
          · rintro ⟨h1, h2⟩
            refine ⟨?_, h2⟩
            have : v ≠ i := by rintro rfl; exact hj h2.symm
            omega
      · intro v hv
        simp only [List.length_set]
        by_cases hvi : v = i
        · subst hvi; exact h1
        · exact h.range v (by omega)) (by
      intro k hk
      obtain ⟨h2, h3⟩ := hs (k + 1) (by simpa using hk)
      rw [List.getElem?_cons_succ] at h2
      simp only [List.length_set]
      have : i + 1 + k = i + (k + 1) := by omega
      rw [this]
      exact ⟨h2, h3⟩)
    refine ⟨ps', r1, ?_⟩
    have : i + (x i :: states).length = i + 1 + states.length := by simp; omega
    rw [this]
    exact r2

theorem infer_spec (hg : Graph n W st.neighbours st.edgeWeight) {iter : List Nat → List Nat} (hiter : ∀ l, (iter l).Perm l) (visit : Nat → Bool) {x : Nat → Nat}
    (hl : Labels n st.states x) : ∃ states' x', infer n iter visit st = some { st with states := states' } ∧ Labels n states' x' ∧ (∀ v, v < n → x' v < n) ∧
      cut n W x' ≤ cut n W x := by
  have hnum := (numberOfPartitions_spec st.states 0).1
  obtain ⟨ps, h1, h2⟩ := fillSets_spec x st.states 0 (List.replicate (numberOfPartitions st.states) []) (by
    refine ⟨?_, by simp⟩
    intro j S hS
    rw [List.getElem?_replicate] at hS
    split at hS
    · rw [← Option.some.inj hS]; simp
    · exact absurd hS (by simp)) (by
    intro k hk
    rw [hl.len] at hk
    have := hl.get k hk
    rw [Nat.zero_add]
    exact ⟨this, by rw [List.length_replicate]; exact hnum _ (List.mem_of_getElem? this)⟩)
  rw [Nat.zero_add, hl.len] at h2
  unfold infer
  rw [h1]
  simp only
  exact mainLoop_spec hiter visit (n ^ n + 1) 0 st ps x hg h2 hl (Nat.lt_succ_of_le (betterSet_card x))

end PartitionMove
end OpenGM
