import Verif.Lemmas.PartitionMoveRounds
import Mathlib.Tactic.ByContra
import Mathlib.Data.Rat.Cast.Order
/-
PartitionMove: the labeling after the last round is a local optimum, for integral energies.
-/
namespace OpenGM
namespace PartitionMove
open Finset
variable {n : Nat} {W : Nat → Nat → ℚ} {st : State}

/-- The weights between different labels sum up to an integer, for all labelings. -/
def Integral (n : Nat) (W : Nat → Nat → ℚ) : Prop := ∀ x : Nat → Nat, ∃ z : ℤ, cut n W x / 2 = z

theorem Integral.diff (h : Integral n W) (x y : Nat → Nat) : ∃ z : ℤ, (cut n W y - cut n W x) / 2 = z := by
  obtain ⟨a, ha⟩ := h x
  obtain ⟨b, hb⟩ := h y
  refine ⟨b - a, ?_⟩
  push_cast
  rw [← ha, ← hb]
  ring

theorem int_nonneg {q : ℚ} {z : ℤ} (hz : q = z) (h : q > -1 / 10 ^ 8) : 0 ≤ q := by
  rw [hz] at h ⊢
  have h1 : (-1 : ℚ) < z := lt_of_le_of_lt (by norm_num) h
  have h2 : (-1 : ℤ) < z := by exact_mod_cast h1
  exact_mod_cast (by omega : (0 : ℤ) ≤ z)

theorem int_le {q : ℚ} {z : ℤ} (hz : q = z) (h : q < 0) : q ≤ -1 := by
  rw [hz] at h ⊢
  have h2 : z < 0 := by exact_mod_cast h
  exact_mod_cast (by omega : z ≤ -1)

theorem gain_eq (hg : Graph n W st.neighbours st.edgeWeight) (x : Nat → Nat) {u : Nat} (hu : u < n) (q : Nat) : gain n W x u q = (cut n W (Function.update x u q) - cut n W x) / 2 := by
  rw [cut_update hg.sym hg.diag x hu q]
  ring

/-! ### the sequence of moves -/

theorem searchSet_min (D : List ℚ) (moved : List Bool) : ∀ (vs : List Nat) (best r : Option (ℚ × Nat)), searchSet D moved vs best = some r →
    (∀ b w, best = some (b, w) → ∃ d u, r = some (d, u) ∧ d ≤ b) ∧ ∀ v ∈ vs, moved[v]? = some false → ∀ d', D[v]? = some d' → ∃ d u, r = some (d, u) ∧ d ≤ d'
  | [], best, r, h => by
    simp only [searchSet, Option.some.injEq] at h
    subst h
    exact ⟨fun b w hb => ⟨b, w, hb, le_refl _⟩, by simp⟩
  | v :: vs, best, r, h => by
    rw [searchSet] at h
    split at h
    · rename_i hm
      obtain ⟨h1, h2⟩ := searchSet_min D moved vs best r h
      refine ⟨h1, fun w hw hmw d' hd' => ?_⟩
      rcases List.mem_cons.mp hw with rfl | hw
      · rw [hm] at hmw; simp at hmw
      · exact h2 w hw hmw d' hd'
    · rename_i d hm hd
      have hcase : ∃ b' w', searchSet D moved vs (some (b', w')) = some r ∧ b' ≤ d ∧ ∀ b w, best = some (b, w) → b' ≤ b := by
        split at h
        · exact ⟨d, v, h, le_refl _, by simp⟩
        · rename_i improve node
          split at h
          · rename_i hlt
            refine ⟨d, v, h, le_refl _, fun b w hb => ?_⟩
            simp only [Option.some.injEq, Prod.mk.injEq] at hb
            rw [← hb.1]
            exact le_of_lt hlt
          · rename_i hlt
            refine ⟨improve, node, h, not_lt.mp hlt, fun b w hb => ?_⟩
            simp only [Option.some.injEq, Prod.mk.injEq] at hb
            rw [← hb.1]
      obtain ⟨b', w', hs, hb1, hb2⟩ := hcase
      obtain ⟨h1, h2⟩ := searchSet_min D moved vs _ r hs
      obtain ⟨d0, u0, e1, e2⟩ := h1 b' w' rfl
      refine ⟨fun b w hb => ⟨d0, u0, e1, le_trans e2 (hb2 b w hb)⟩, fun w hw hmw d' hd' => ?_⟩
      rcases List.mem_cons.mp hw with rfl | hw
      · rw [hd] at hd'
        rw [← Option.some.inj hd']
        exact ⟨d0, u0, e1, le_trans e2 hb1⟩
      · exact h2 w hw hmw d' hd'
    · simp at h

theorem movesLoop_le {iter : List Nat → List Nat} {S0 S1 : List Nat} : ∀ (k : Nat) (m m' : Moves), movesLoop st iter S0 S1 k m = some m' → ∀ b, m.sumSeq[m.bestMove]? = some b →
    ∃ b', m'.sumSeq[m'.bestMove]? = some b' ∧ b' ≤ b
  | 0, m, m', h, b, hb => by
    simp only [movesLoop, Option.some.injEq] at h
    subst h
    exact ⟨b, hb, le_refl _⟩
  | k + 1, m, m', h, b, hb => by
    rw [movesLoop] at h
    split at h
    · simp at h
    · simp only [Option.some.injEq] at h
      subst h
      exact ⟨b, hb, le_refl _⟩
    · rename_i improve node _
      split at h
      · rename_i moved back nb _ _ _
        simp only at h
        have hlt := (List.getElem?_eq_some_iff.mp hb).1
        rw [List.getElem?_append_left hlt, hb] at h
        simp only at h
        split at h
        · simp at h
        · rename_i D _
          by_cases hc : b > back + improve
          · rw [if_pos hc] at h
            obtain ⟨b', h1, h2⟩ := movesLoop_le k _ m' h (back + improve) (by simp)
            exact ⟨b', h1, le_trans h2 (le_of_lt hc)⟩
          · rw [if_neg hc] at h
            exact movesLoop_le k _ m' h b (by simp only; rw [List.getElem?_append_left hlt, hb])
      · simp at h

theorem movesLoop_first {iter : List Nat → List Nat} (hiter : ∀ l, (iter l).Perm l) {S0 S1 : List Nat} {k : Nat} {m m' : Moves} (h : movesLoop st iter S0 S1 (k + 1) m = some m')
    (hs : m.sumSeq = [0]) (hb : m.bestMove = 0) {v : Nat} (hv : v ∈ S0 ∨ v ∈ S1) (hm : m.moved[v]? = some false) {d : ℚ} (hd : m.D[v]? = some d) :
    ∃ b', m'.sumSeq[m'.bestMove]? = some b' ∧ b' ≤ d := by
  rw [movesLoop] at h
  cases h0 : searchSet m.D m.moved (iter S0) none with
  | none => rw [h0] at h; simp at h
  | some r0 =>
    rw [h0, Option.bind_some] at h
    cases h1 : searchSet m.D m.moved (iter S1) r0 with
    | none => rw [h1] at h; simp at h
    | some r =>
      rw [h1] at h
      have hr : ∃ d0 u0, r = some (d0, u0) ∧ d0 ≤ d := by
        obtain ⟨a1, a2⟩ := searchSet_min _ _ _ _ _ h0
        obtain ⟨b1, b2⟩ := searchSet_min _ _ _ _ _ h1
        rcases hv with hv | hv
        · obtain ⟨d0, u0, e1, e2⟩ := a2 v ((hiter S0).mem_iff.mpr hv) hm d hd
          obtain ⟨d1, u1, f1, f2⟩ := b1 d0 u0 e1
          exact ⟨d1, u1, f1, le_trans f2 e2⟩
        · exact b2 v ((hiter S1).mem_iff.mpr hv) hm d hd
      obtain ⟨d0, u0, rfl, hle⟩ := hr
      simp only at h
      split at h
      · rename_i moved back nb _ hback _
        rw [hs] at hback
        simp only [List.getLast?_singleton, Option.some.injEq] at hback
        subst hback
        rw [hs, hb] at h
        simp only [List.cons_append, List.nil_append, List.getElem?_cons_zero, zero_add] at h
        split at h
        · simp at h
        · rename_i D _
          by_cases hc : 0 > d0
          · rw [if_pos hc] at h
            obtain ⟨b', h1, h2⟩ := movesLoop_le k _ m' h d0 (by simp)
            exact ⟨b', h1, le_trans h2 hle⟩
          · rw [if_neg hc] at h
            obtain ⟨b', h1, h2⟩ := movesLoop_le k _ m' h 0 (by simp)
            exact ⟨b', h1, le_trans h2 (le_trans (not_lt.mp hc) hle)⟩
      · simp at h

theorem outerLoop_local (hg : Graph n W st.neighbours st.edgeWeight) (hI : Integral n W) {iter : List Nat → List Nat} (hiter : ∀ l, (iter l).Perm l) {p0 p1 : Nat}
    {k : Nat} {imp : ℚ} {x : Nat → Nat} {S0 S1 : List Nat} (hp : Pair n x p0 p1 S0 S1) {imp' : ℚ} {S0' S1' : List Nat} (h : outerLoop st n iter (k + 1) imp S0 S1 = some (imp', S0', S1')) :
    (imp' = imp ∧ S0' = S0 ∧ S1' = S1 ∧ ∀ v, v ∈ S0 ∨ v ∈ S1 → 0 ≤ gain n W x v (flip p0 p1 (x v))) ∨ imp' ≤ imp - 1 := by
  obtain ⟨D0, a1, a2, a3, a4⟩ := fillD_spec hg hp (iter S0) (List.replicate n 0) (by simp) (fun v hv => (hiter S0).mem_iff.mp hv)
  obtain ⟨D, b1, b2, b3, b4⟩ := fillD_spec hg hp.swap (iter S1) D0 a2 (fun v hv => (hiter S1).mem_iff.mp hv)
  rw [outerLoop, a1, Option.bind_some, b1] at h
  simp only at h
  have hconf : conf p0 p1 x [] = x := by funext v; simp [conf]
  have hDv : ∀ v, v ∈ S0 ∨ v ∈ S1 → D[v]? = some (gain n W x v (flip p0 p1 (x v))) := by
    intro v hv
    have hdis : ∀ v, v ∈ S0 → v ∉ S1 := by
      intro v h0 h1
      exact hp.ne (((hp.mem0 v).mp h0).2.symm.trans ((hp.mem1 v).mp h1).2)
    rcases hv with hv | hv
    · have hx := ((hp.mem0 v).mp hv).2
      rw [b4 v (fun h => hdis v hv ((hiter S1).mem_iff.mp h)), a3 v ((hiter S0).mem_iff.mpr hv)]
      simp [flip, hx]
    · have hx := ((hp.mem1 v).mp hv).2
      rw [b3 v ((hiter S1).mem_iff.mpr hv)]
      simp [flip, hx, hp.ne.symm]
  obtain ⟨m, e1, hm⟩ := movesLoop_spec hg hiter hp 1000 ⟨D, List.replicate n false, [], [0], 0⟩
    { lenD := b2
      lenM := by simp
      nodup := by simp
      sub := by simp
      moved := by intro v hv; simp [hv]
      lenS := by simp
      sums := by
        intro k hk
        have : k = 0 := by simpa using hk
        subst this
        simp [hconf]
      best := by simp
      D := by
        intro v hv _
        simp only [hconf]
        exact hDv v hv }
  rw [e1] at h
  simp only at h
  have hsum := hm.sums _ hm.best
  rw [hsum] at h
  simp only at h
  obtain ⟨z, hz⟩ := hI.diff x (conf p0 p1 x (m.seq.take m.bestMove))
  split at h
  · rename_i hle
    simp only [Option.some.injEq, Prod.mk.injEq] at h
    obtain ⟨rfl, rfl, rfl⟩ := h
    refine Or.inl ⟨rfl, rfl, rfl, fun v hv => ?_⟩
    have hvn : v < n := by
      rcases hv with hv | hv
      · exact ((hp.mem0 v).mp hv).1
      · exact ((hp.mem1 v).mp hv).1
    obtain ⟨b', f1, f2⟩ := movesLoop_first hiter e1 rfl rfl hv (by simp [hvn]) (hDv v hv)
    rw [hsum] at f1
    have := Option.some.inj f1
    have hgain := gain_eq hg x hvn (flip p0 p1 (x v))
    obtain ⟨z', hz'⟩ := hI.diff x (Function.update x v (flip p0 p1 (x v)))
    rw [hgain]
    rw [hgain] at f2
    refine int_nonneg hz' (lt_of_lt_of_le (lt_of_le_of_lt ?_ hle) (this ▸ f2))
    norm_num
  · rename_i hle
    right
    have hneg : (cut n W (conf p0 p1 x (m.seq.take m.bestMove)) - cut n W x) / 2 < 0 := by
      rw [gt_iff_lt, not_lt] at hle
      exact lt_of_le_of_lt hle (by norm_num)
    have h1 := int_le hz hneg
    have hp' := perform_spec (m.seq.take m.bestMove) x S0 S1 hp (hm.nodup.sublist (List.take_sublist _ _)) (fun v hv => hm.sub v (List.mem_of_mem_take hv))
    obtain ⟨imp'', S0'', S1'', x', f1, f2, f3, f4⟩ := outerLoop_spec hg hiter k (imp + (cut n W (conf p0 p1 x (m.seq.take m.bestMove)) - cut n W x) / 2) _ _ _ hp'
    rw [f1] at h
    simp only [Option.some.injEq, Prod.mk.injEq] at h
    obtain ⟨rfl, _, _⟩ := h
    have := f3.le
    rw [f4]
    linarith

theorem solveBinaryKL_local (hg : Graph n W st.neighbours st.edgeWeight) (hI : Integral n W) {iter : List Nat → List Nat} (hiter : ∀ l, (iter l).Perm l) {p0 p1 : Nat}
    {x : Nat → Nat} {S0 S1 : List Nat} (hp : Pair n x p0 p1 S0 S1) {imp : ℚ} {S0' S1' : List Nat} (h : solveBinaryKL st n iter S0 S1 = some (imp, S0', S1')) :
    (S0' = S0 ∧ S1' = S1 ∧ ∀ v, v ∈ S0 ∨ v ∈ S1 → 0 ≤ gain n W x v (flip p0 p1 (x v))) ∨ imp ≤ -1 := by
  rcases outerLoop_local hg hI hiter hp h with ⟨_, h2⟩ | h1
  · exact Or.inl h2
  · exact Or.inr (by linarith)

/-! ### a round without a change -/

theorem pairLoop_true {iter : List Nat → List Nat} {part0 : Nat} : ∀ (parts : List Nat) (ps ps' : List (List Nat)) (c : Bool), pairLoop st n iter part0 parts ps true = some (ps', c) → c = true
  | [], ps, ps', c, h => by simp [pairLoop] at h; exact h.2
  | part1 :: parts, ps, ps', c, h => by
    rw [pairLoop] at h
    split at h
    · split at h
      · exact pairLoop_true parts _ _ _ h
      · split at h
        · simp at h
        · split at h
          · simp at h
          · rw [ite_self] at h
            exact pairLoop_true parts _ _ _ h
    · simp at h

theorem pairLoop_local (hg : Graph n W st.neighbours st.edgeWeight) (hI : Integral n W) {iter : List Nat → List Nat} (hiter : ∀ l, (iter l).Perm l) {part0 : Nat} {x : Nat → Nat} {ps : List (List Nat)}
    (hr : Rep n ps x) (h0 : part0 < ps.length) : ∀ (parts : List Nat) (c : Bool) (ps' : List (List Nat)), (∀ q ∈ parts, part0 < q ∧ q < ps.length) →
    pairLoop st n iter part0 parts ps c = some (ps', false) → c = false ∧ ps' = ps ∧ ∀ q ∈ parts, ∀ v, v < n → (x v = part0 ∨ x v = q) → (∃ w, w < n ∧ x w = part0) → (∃ w, w < n ∧ x w = q) →
      0 ≤ gain n W x v (flip part0 q (x v))
  | [], c, ps', _, h => by
    simp only [pairLoop, Option.some.injEq, Prod.mk.injEq] at h
    exact ⟨h.2, h.1.symm, by simp⟩
  | part1 :: parts, c, ps', hq, h => by
    obtain ⟨hlt, h1⟩ := hq part1 (by simp)
    have hrest : ∀ q ∈ parts, part0 < q ∧ q < ps.length := fun q h => hq q (by simp [h])
    have e0 : ps[part0]? = some (ps[part0]'h0) := List.getElem?_eq_getElem _
    have e1 : ps[part1]? = some (ps[part1]'h1) := List.getElem?_eq_getElem _
    have hp := hr.pair (Nat.ne_of_lt hlt) e0 e1
    rw [pairLoop, e0, e1] at h
    simp only at h
    split at h
    · rename_i hempty
      obtain ⟨r1, r2, r3⟩ := pairLoop_local hg hI hiter hr h0 parts c ps' hrest h
      refine ⟨r1, r2, fun q hq' => ?_⟩
      rcases List.mem_cons.mp hq' with rfl | hq'
      · rintro v _ _ ⟨w0, hw0, hx0⟩ ⟨w1, hw1, hx1⟩
        exfalso
        rcases hempty with he | he
        · have := (hp.mem0 w0).mpr ⟨hw0, hx0⟩
          rw [List.length_eq_zero_iff.mp he] at this
          simp at this
        · have := (hp.mem1 w1).mpr ⟨hw1, hx1⟩
          rw [List.length_eq_zero_iff.mp he] at this
          simp at this
      · exact r3 q hq'
    · cases hs : solveBinaryKL st n iter (ps[part0]'h0) (ps[part1]'h1) with
      | none => rw [hs] at h; simp at h
      | some r =>
        obtain ⟨imp, s0, s1⟩ := r
        rw [hs] at h
        simp only at h
        rw [setAt_of_lt _ h0, Option.bind_some, setAt_of_lt _ (by simpa using h1)] at h
        simp only at h
        rcases solveBinaryKL_local hg hI hiter hp hs with ⟨rfl, rfl, hgain⟩ | himp
        · have hsame : (ps.set part0 (ps[part0]'h0)).set part1 (ps[part1]'h1) = ps := by
            rw [List.set_getElem_self, List.set_getElem_self]
          rw [hsame] at h
          obtain ⟨r1, r2, r3⟩ := pairLoop_local hg hI hiter hr h0 parts _ ps' hrest h
          have hc : c = false := by
            split at r1
            · simp at r1
            · exact r1
          refine ⟨hc, r2, fun q hq' => ?_⟩
          rcases List.mem_cons.mp hq' with rfl | hq'
          · intro v hv hx _ _
            apply hgain
            rcases hx with hx | hx
            · exact Or.inl ((hp.mem0 v).mpr ⟨hv, hx⟩)
            · exact Or.inr ((hp.mem1 v).mpr ⟨hv, hx⟩)
          · exact r3 q hq'
        · rw [if_pos (by
            show imp < -1 / 10 ^ 8
            exact lt_of_le_of_lt himp (by norm_num))] at h
          exact absurd (pairLoop_true _ _ _ _ h) (by simp)

theorem insertSorted_mem {a y : Nat} : ∀ {l : List Nat}, y = a ∨ y ∈ l → y ∈ insertSorted a l
  | [], h => by simpa [insertSorted] using h
  | b :: l, h => by
    rw [insertSorted]
    split
    · simpa using h
    · split
      · rcases h with h | h
        · exact List.mem_cons_of_mem _ (insertSorted_mem (Or.inl h))
        · rcases List.mem_cons.mp h with h | h
          · simp [h]
          · exact List.mem_cons_of_mem _ (insertSorted_mem (Or.inr h))
      · rename_i h1 h2
        have : a = b := by omega
        subst this
        rcases h with h | h
        · simp [h]
        · exact h

theorem neighbourParts_mem (states : List Nat) (part0 : Nat) : ∀ (nb : List (Nat × Nat)) (acc r : List Nat), neighbourParts states part0 nb acc = some r →
    (∀ q ∈ acc, q ∈ r) ∧ ∀ e ∈ nb, ∀ q, states[e.1]? = some q → part0 < q → q ∈ r
  | [], acc, r, h => by simp only [neighbourParts, Option.some.injEq] at h; subst h; simp
  | (v, e) :: nb, acc, r, h => by
    rw [neighbourParts] at h
    split at h
    · simp at h
    · rename_i s hs
      obtain ⟨h1, h2⟩ := neighbourParts_mem states part0 nb _ r h
      refine ⟨fun q hq => h1 q ?_, fun e' he' q hq hlt => ?_⟩
      · split
        · exact insertSorted_mem (Or.inr hq)
        · exact hq
      · rcases List.mem_cons.mp he' with rfl | he'
        · simp only at hq
          rw [hs] at hq
          have := Option.some.inj hq
          subst this
          apply h1
          rw [if_pos hlt]
          exact insertSorted_mem (Or.inl rfl)
        · exact h2 e' he' q hq hlt

theorem neighbourSets_mem (part0 : Nat) : ∀ (nodes acc r : List Nat), neighbourSets st part0 nodes acc = some r →
    (∀ q ∈ acc, q ∈ r) ∧ ∀ v ∈ nodes, ∀ (nb : List (Nat × Nat)), st.neighbours[v]? = some nb → ∀ e ∈ nb, ∀ q, st.states[e.1]? = some q → part0 < q → q ∈ r
  | [], acc, r, h => by simp only [neighbourSets, Option.some.injEq] at h; subst h; simp
  | v :: nodes, acc, r, h => by
    rw [neighbourSets] at h
    split at h
    · simp at h
    · rename_i nb hnb
      split at h
      · simp at h
      · rename_i acc' ha
        obtain ⟨a1, a2⟩ := neighbourParts_mem _ _ _ _ _ ha
        obtain ⟨b1, b2⟩ := neighbourSets_mem part0 nodes acc' r h
        refine ⟨fun q hq => b1 q (a1 q hq), fun w hw nb' hnb' e he q hq hlt => ?_⟩
        rcases List.mem_cons.mp hw with rfl | hw
        · rw [hnb] at hnb'
          have := Option.some.inj hnb'
          subst this
          exact b1 q (a2 e he q hq hlt)
        · exact b2 w hw nb' hnb' e he q hq hlt

theorem allPairs_true {iter : List Nat → List Nat} : ∀ (parts : List Nat) (ps ps' : List (List Nat)) (c : Bool), allPairs st n iter parts ps true = some (ps', c) → c = true
  | [], ps, ps', c, h => by simp [allPairs] at h; exact h.2
  | part0 :: parts, ps, ps', c, h => by
    rw [allPairs] at h
    split at h
    · simp at h
    · split at h
      · simp at h
      · split at h
        · simp at h
        · rename_i ps1 c1 hp
          have := pairLoop_true _ _ _ _ hp
          subst this
          exact allPairs_true parts _ _ _ h

theorem allPairs_local (hg : Graph n W st.neighbours st.edgeWeight) (hI : Integral n W) {iter : List Nat → List Nat} (hiter : ∀ l, (iter l).Perm l) {x : Nat → Nat} {ps : List (List Nat)}
    (hr : Rep n ps x) (hst : ∀ v, v < n → st.states[v]? = some (x v)) : ∀ (parts : List Nat) (c : Bool) (ps' : List (List Nat)), (∀ q ∈ parts, q < ps.length) →
    allPairs st n iter parts ps c = some (ps', false) → c = false ∧ ps' = ps ∧ ∀ part0 ∈ parts, ∀ u w, u < n → w < n → x u = part0 → part0 < x w → W u w ≠ 0 →
      0 ≤ gain n W x u (x w) ∧ 0 ≤ gain n W x w (x u)
  | [], c, ps', _, h => by
    simp only [allPairs, Option.some.injEq, Prod.mk.injEq] at h
    exact ⟨h.2, h.1.symm, by simp⟩
  | part0 :: parts, c, ps', hq, h => by
    have h0 : part0 < ps.length := hq part0 (by simp)
    have e0 : ps[part0]? = some (ps[part0]'h0) := List.getElem?_eq_getElem _
    obtain ⟨nbs, a1, a2⟩ := neighbourSets_spec hg part0 ps.length (fun v hv => ⟨x v, hst v hv, hr.range v hv⟩) (iter (ps[part0]'h0)) []
      (fun v hv => (((hr.sets part0 _ e0).2 v).mp ((hiter _).mem_iff.mp hv)).1) (by simp)
    rw [allPairs, e0] at h
    simp only at h
    rw [a1] at h
    simp only at h
    cases hs : pairLoop st n iter part0 nbs ps c with
    | none => rw [hs] at h; simp at h
    | some r =>
      obtain ⟨ps1, c1⟩ := r
      rw [hs] at h
      simp only at h
      cases c1 with
      | true => exact absurd (allPairs_true _ _ _ _ h) (by simp)
      | false =>
        obtain ⟨b1, b2, b3⟩ := pairLoop_local hg hI hiter hr h0 nbs c ps1 a2 hs
        subst b2
        obtain ⟨r1, r2, r3⟩ := allPairs_local hg hI hiter hr hst parts false ps' (fun q hq' => hq q (by simp [hq'])) h
        refine ⟨b1, r2, fun q hq' => ?_⟩
        rcases List.mem_cons.mp hq' with rfl | hq'
        · intro u w hu hw hxu hlt hW
          obtain ⟨nb, hnb⟩ := hg.get hu
          obtain ⟨_, g2, g3⟩ := hg.nb u nb hnb
          have hin : w ∈ nb.map Prod.fst := by
            by_contra hc
            exact hW (g3 w hw hc)
          obtain ⟨e, he, rfl⟩ := List.mem_map.mp hin
          have hmem := (neighbourSets_mem q _ _ _ a1).2 u ((hiter _).mem_iff.mpr (((hr.sets q _ e0).2 u).mpr ⟨hu, hxu⟩)) nb hnb e he (x e.1) (hst _ hw) hlt
          have k1 := b3 (x e.1) hmem u hu (Or.inl hxu) ⟨u, hu, hxu⟩ ⟨e.1, hw, rfl⟩
          have k2 := b3 (x e.1) hmem e.1 hw (Or.inr rfl) ⟨u, hu, hxu⟩ ⟨e.1, hw, rfl⟩
          have hne : x e.1 ≠ q := by omega
          refine ⟨?_, ?_⟩
          · simpa [flip, hxu] using k1
          · simpa [flip, hxu, hne] using k2
        · exact r3 q hq'

theorem splitLoop_true {iter : List Nat → List Nat} : ∀ (parts : List Nat) (ps ps' : List (List Nat)) (prune prune' : List Nat) (c : Bool),
    splitLoop st n iter parts ps prune true = some (ps', prune', c) → c = true
  | [], ps, ps', prune, prune', c, h => by simp [splitLoop] at h; exact h.2.2
  | part0 :: parts, ps, ps', prune, prune', c, h => by
    rw [splitLoop] at h
    split at h
    · simp at h
    · split at h
      · exact splitLoop_true parts _ _ _ _ _ h
      · split at h
        · split at h
          · simp at h
          · split at h
            · simp at h
            · split at h <;> exact splitLoop_true parts _ _ _ _ _ h
        · exact splitLoop_true parts _ _ _ _ _ h

theorem splitLoop_local (hg : Graph n W st.neighbours st.edgeWeight) (hI : Integral n W) {iter : List Nat → List Nat} (hiter : ∀ l, (iter l).Perm l) {x : Nat → Nat} {ps : List (List Nat)}
    (hr : Rep n ps x) : ∀ (parts : List Nat) (prune : List Nat) (c : Bool) (ps' : List (List Nat)) (prune' : List Nat), (∀ q ∈ parts, q < ps.length) →
    splitLoop st n iter parts ps prune c = some (ps', prune', false) → c = false ∧ ps' = ps ∧ ∀ part0 ∈ parts, ∀ u w, u < n → w < n → x u = part0 → x w = part0 → u ≠ w →
      0 ≤ gain n W x u ps.length
  | [], prune, c, ps', prune', _, h => by
    simp only [splitLoop, Option.some.injEq, Prod.mk.injEq] at h
    exact ⟨h.2.2, h.1.symm, by simp⟩
  | part0 :: parts, prune, c, ps', prune', hq, h => by
    have h0 : part0 < ps.length := hq part0 (by simp)
    have e0 : ps[part0]? = some (ps[part0]'h0) := List.getElem?_eq_getElem _
    have hrest : ∀ q ∈ parts, q < ps.length := fun q h => hq q (by simp [h])
    rw [splitLoop, e0] at h
    simp only at h
    have hshort : ¬ (ps[part0]'h0).length > 1 → ∀ u w, u < n → w < n → x u = part0 → x w = part0 → u ≠ w → 0 ≤ gain n W x u ps.length := by
      intro hle u w hu hw hxu hxw hne
      exfalso
      have m1 := ((hr.sets part0 _ e0).2 u).mpr ⟨hu, hxu⟩
      have m2 := ((hr.sets part0 _ e0).2 w).mpr ⟨hw, hxw⟩
      revert m1 m2 hle
      cases ps[part0]'h0 with
      | nil => simp
      | cons a l =>
        cases l with
        | nil =>
          intro _ m1 m2
          rw [List.mem_singleton] at m1 m2
          exact hne (m1.trans m2.symm)
        | cons b l => intro hle; simp at hle
    split at h
    · rename_i hlen
      obtain ⟨r1, r2, r3⟩ := splitLoop_local hg hI hiter hr parts _ c ps' prune' hrest h
      refine ⟨r1, r2, fun q hq' => ?_⟩
      rcases List.mem_cons.mp hq' with rfl | hq'
      · exact hshort (by omega)
      · exact r3 q hq'
    · split at h
      · have hpair : Pair n x part0 ps.length (ps[part0]'h0) [] := by
          refine ⟨Nat.ne_of_lt h0, (hr.sets part0 _ e0).1, by simp, (hr.sets part0 _ e0).2, fun v => ?_⟩
          constructor
          · intro hv; simp at hv
          · rintro ⟨hv, hx⟩
            have := hr.range v hv
            omega
        obtain ⟨imp, S0', S1', x1, k1, k2, k3, k4⟩ := solveBinaryKL_spec hg hiter hpair
        rw [k1] at h
        simp only at h
        rw [setAt_of_lt _ h0] at h
        simp only at h
        by_cases hs1 : S1'.length > 0
        · rw [if_pos hs1] at h
          exact absurd (splitLoop_true _ _ _ _ _ _ h) (by simp)
        · rw [if_neg hs1] at h
          have hnil : S1' = [] := List.length_eq_zero_iff.mp (by omega)
          rcases solveBinaryKL_local hg hI hiter hpair k1 with ⟨rfl, _, hgain⟩ | himp
          · rw [List.set_getElem_self] at h
            obtain ⟨r1, r2, r3⟩ := splitLoop_local hg hI hiter hr parts _ c ps' prune' hrest h
            refine ⟨r1, r2, fun q hq' => ?_⟩
            rcases List.mem_cons.mp hq' with rfl | hq'
            · intro u w hu _ hxu _ _
              have := hgain u (Or.inl ((hpair.mem0 u).mpr ⟨hu, hxu⟩))
              simpa [flip, hxu] using this
            · exact r3 q hq'
          · exfalso
            have hcut : cut n W x1 = cut n W x := by
              apply cut_congr
              have hval : ∀ v, v < n → x1 v = x v := by
                intro v hv
                have hxl := hr.range v hv
                by_cases hx : x v = part0
                · rcases k3.inside v (Or.inl hx) with h' | h'
                  · rw [h', hx]
                  · have := (k2.mem1 v).mpr ⟨hv, h'⟩
                    rw [hnil] at this
                    simp at this
                · exact k3.other v hx (by omega)
              intro u v hu hv
              rw [hval u hu, hval v hv]
            rw [hcut] at k4
            norm_num at k4
            rw [k4] at himp
            norm_num at himp
      · rename_i hlen
        obtain ⟨r1, r2, r3⟩ := splitLoop_local hg hI hiter hr parts _ c ps' prune' hrest h
        refine ⟨r1, r2, fun q hq' => ?_⟩
        rcases List.mem_cons.mp hq' with rfl | hq'
        · exact hshort hlen
        · exact r3 q hq'

/-! ### local optimality -/

/-- No change of a single label decreases the weight. -/
def Local (n : Nat) (W : Nat → Nat → ℚ) (x : Nat → Nat) : Prop := ∀ u, u < n → ∀ q, cut n W x ≤ cut n W (Function.update x u q)

theorem Local.congr {x y : Nat → Nat} (hx : Local n W x) (h : ∀ u v, u < n → v < n → (y u = y v ↔ x u = x v)) : Local n W y := by
  intro u hu q
  have hxy : cut n W y = cut n W x := cut_congr h
  rw [hxy]
  by_cases hq : ∃ w, w < n ∧ w ≠ u ∧ y w = q
  · obtain ⟨w, hw, hwu, rfl⟩ := hq
    refine le_trans (hx u hu (x w)) (le_of_eq (cut_congr fun a b ha hb => ?_))
    by_cases h1 : a = u <;> by_cases h2 : b = u <;> simp [Function.update_of_ne, h1, h2, h, hu, hw, ha, hb]
  · have hq' : ∀ w, w < n → w ≠ u → y w ≠ q := fun w hw hwu hy => hq ⟨w, hw, hwu, hy⟩
    refine le_trans (hx u hu ((range n).sup x + 1)) (le_of_eq (cut_congr fun a b ha hb => ?_))
    have hlt : ∀ w, w < n → x w ≠ (range n).sup x + 1 := by
      intro w hw
      have := Finset.le_sup (f := x) (Finset.mem_range.mpr hw)
      omega
    by_cases h1 : a = u <;> by_cases h2 : b = u
    · simp [h1, h2]
    · simp [h1, Function.update_of_ne h2, (hlt b hb).symm, (hq' b hb h2).symm]
    · simp [h2, Function.update_of_ne h1, hlt a ha, hq' a ha h1]
    · simp [Function.update_of_ne h1, Function.update_of_ne h2, h a b ha hb]

theorem local_of_pairs (hg : Graph n W st.neighbours st.edgeWeight) {x : Nat → Nat} {L : Nat} (hL : ∀ v, v < n → x v < L)
    (hpairs : ∀ u w, u < n → w < n → x u < x w → W u w ≠ 0 → 0 ≤ gain n W x u (x w) ∧ 0 ≤ gain n W x w (x u))
    (hsplit : ∀ u w, u < n → w < n → x u = x w → u ≠ w → 0 ≤ gain n W x u L) : Local n W x := by
  intro u hu q
  rw [cut_update hg.sym hg.diag x hu q]
  suffices h : 0 ≤ gain n W x u q by linarith
  by_cases hxq : q = x u
  · subst hxq
    simp [gain]
  by_cases hnb : ∃ w, w < n ∧ x w = q ∧ W u w ≠ 0
  · obtain ⟨w, hw, rfl, hW⟩ := hnb
    rcases Nat.lt_or_ge (x u) (x w) with hlt | hge
    · exact (hpairs u w hu hw hlt hW).1
    · exact (hpairs w u hw hu (by omega) (by rw [hg.sym]; exact hW)).2
  · have hfresh : gain n W x u q = gain n W x u L := by
      unfold gain
      refine Finset.sum_congr rfl fun v hv => ?_
      have hv' := Finset.mem_range.mp hv
      by_cases hW : W u v = 0
      · simp [hW]
      · have h1 : q ≠ x v := fun h => hnb ⟨v, hv', h.symm, hW⟩
        have h2 : L ≠ x v := by have := hL v hv'; omega
        simp [ne, h1, h2]
    rw [hfresh]
    by_cases hother : ∃ w, w < n ∧ x u = x w ∧ u ≠ w
    · obtain ⟨w, hw, h1, h2⟩ := hother
      exact hsplit u w hu hw h1 h2
    · apply le_of_eq
      unfold gain
      symm
      apply Finset.sum_eq_zero
      intro v hv
      have hv' := Finset.mem_range.mp hv
      by_cases hvu : v = u
      · subst hvu; simp [hg.diag]
      · have h1 : x u ≠ x v := fun h => hother ⟨v, hv', h, Ne.symm hvu⟩
        have h2 : L ≠ x v := by have := hL v hv'; omega
        simp [ne, h1, h2]

theorem Rep.unique {ps : List (List Nat)} {x y : Nat → Nat} (hx : Rep n ps x) (hy : Rep n ps y) {v : Nat} (hv : v < n) : x v = y v := by
  have e : ps[x v]? = some (ps[x v]'(hx.range v hv)) := List.getElem?_eq_getElem _
  have h1 := ((hx.sets _ _ e).2 v).mpr ⟨hv, rfl⟩
  exact (((hy.sets _ _ e).2 v).mp h1).2.symm

theorem round_local (hg : Graph n W st.neighbours st.edgeWeight) (hI : Integral n W) {iter : List Nat → List Nat} (hiter : ∀ l, (iter l).Perm l) {ps : List (List Nat)} {x : Nat → Nat}
    (h : Rep n ps x) (hl : Labels n st.states x) {st' : State} {ps' : List (List Nat)} (hround : round n iter st ps = some (st', ps', false)) :
    ∃ x', Labels n st'.states x' ∧ Local n W x' := by
  unfold round at hround
  simp only at hround
  cases h1 : allPairs st n iter (List.range ps.length) ps false with
  | none => rw [h1] at hround; simp at hround
  | some r1 =>
    obtain ⟨ps1, c1⟩ := r1
    rw [h1] at hround
    simp only at hround
    cases h2 : splitLoop st n iter (List.range ps.length) ps1 [] c1 with
    | none => rw [h2] at hround; simp at hround
    | some r2 =>
      obtain ⟨ps2, prune, c2⟩ := r2
      rw [h2] at hround
      simp only at hround
      have hc2 : c2 = false := by
        split at hround
        · simp at hround
        · split at hround
          · simp at hround
          · simp only [Option.some.injEq, Prod.mk.injEq] at hround
            exact hround.2.2
      subst hc2
      have hc1 : c1 = false := by
        cases c1 with
        | false => rfl
        | true => exact absurd (splitLoop_true _ _ _ _ _ _ h2) (by simp)
      subst hc1
      obtain ⟨_, rfl, a3⟩ := allPairs_local hg hI hiter h hl.get (List.range ps.length) false ps1 (fun q hq => List.mem_range.mp hq) h1
      obtain ⟨_, rfl, b3⟩ := splitLoop_local hg hI hiter h (List.range ps1.length) [] false ps2 prune (fun q hq => List.mem_range.mp hq) h2
      have hlocal : Local n W x := by
        refine local_of_pairs hg h.range (fun u w hu hw hlt hW => ?_) (fun u w hu hw hx hne => ?_)
        · exact a3 (x u) (List.mem_range.mpr (h.range u hu)) u w hu hw rfl hlt hW
        · exact b3 (x u) (List.mem_range.mpr (h.range u hu)) u w hu hw rfl hx.symm hne
      obtain ⟨ps2', prune', c2', x2, d1, d2, _, _, d5, d6⟩ := splitLoop_spec hg hiter (List.range ps2.length) ps2 [] false x h
        (fun q hq => List.mem_range.mp hq) List.pairwise_lt_range (by simp) (by simp)
        (fun j hj => Or.inr (List.mem_range.mpr (List.getElem?_eq_some_iff.mp hj).1)) (by simp)
      rw [h2] at d1
      simp only [Option.some.injEq, Prod.mk.injEq] at d1
      obtain ⟨rfl, rfl, _⟩ := d1
      obtain ⟨ps3, x3, e1, e2, e3, e4⟩ := pruneLoop_spec prune.reverse ps2 x h (by rw [List.pairwise_reverse]; exact d5) (fun j => by rw [d6, List.mem_reverse])
      obtain ⟨states', f1, f2, f3⟩ := labelAll_spec (n := n) x3 (ps3.map iter) 0 st.states hl.len (by
        intro j S hS v hv
        rw [List.getElem?_map, Option.map_eq_some_iff] at hS
        obtain ⟨T, hT, rfl⟩ := hS
        have := ((e2.sets j T hT).2 v).mp ((hiter T).mem_iff.mp hv)
        exact ⟨this.1, by omega⟩)
      rw [e1] at hround
      simp only at hround
      rw [f1] at hround
      simp only [Option.some.injEq, Prod.mk.injEq] at hround
      obtain ⟨rfl, _, _⟩ := hround
      refine ⟨x3, ⟨f2, fun v hv => f3 v (Or.inl ?_)⟩, hlocal.congr e4⟩
      have e : ps3[x3 v]? = some (ps3[x3 v]'(e2.range v hv)) := List.getElem?_eq_getElem _
      exact ⟨iter (ps3[x3 v]'(e2.range v hv)), List.mem_map.mpr ⟨_, List.mem_of_getElem? e, rfl⟩, (hiter _).mem_iff.mpr (((e2.sets _ _ e).2 v).mpr ⟨hv, rfl⟩)⟩

theorem mainLoop_local {iter : List Nat → List Nat} (hI : Integral n W) (hiter : ∀ l, (iter l).Perm l) {visit : Nat → Bool} (hv : ∀ i, visit i = true) :
    ∀ (fuel i : Nat) (st st' : State) (ps : List (List Nat)) (x : Nat → Nat),
    Graph n W st.neighbours st.edgeWeight → Rep n ps x → Labels n st.states x → mainLoop n iter fuel visit i st ps = some st' → ∃ x', Labels n st'.states x' ∧ Local n W x'
  | 0, _, _, _, _, _, _, _, _, h => by simp [mainLoop] at h
  | fuel + 1, i, st, st', ps, x, hg, hr, hl, h => by
    obtain ⟨s1, ps1, c, x1, a1, a2, a3, _, _, _⟩ := round_spec hg hiter hr hl
    rw [mainLoop, a1] at h
    simp only [hv i, Bool.true_and] at h
    cases c with
    | true =>
      rw [if_pos rfl] at h
      exact mainLoop_local hI hiter hv fuel (i + 1) { st with states := s1 } st' ps1 x1 hg a2 a3 h
    | false =>
      simp only [Bool.false_eq_true, if_false, Option.some.injEq] at h
      subst h
      exact round_local hg hI hiter hr hl a1

theorem infer_local (hg : Graph n W st.neighbours st.edgeWeight) (hI : Integral n W) {iter : List Nat → List Nat} (hiter : ∀ l, (iter l).Perm l) {visit : Nat → Bool} (hv : ∀ i, visit i = true)
    {x : Nat → Nat} (hl : Labels n st.states x) {st' : State} (h : infer n iter visit st = some st') : ∃ x', Labels n st'.states x' ∧ Local n W x' := by
  have hnum := (numberOfPartitions_spec st.states 0).1
  obtain ⟨ps, h1, h2⟩ := fillSets_spec x st.states 0 (List.replicate (numberOfPartitions st.states) []) (by
    refine ⟨?_, by simp⟩
    intro j S hS
    rw [List.getElem?_replicate] at hS
    split at hS
    · rw [← Option.some.inj hS]; simp
    · exact absurd hS (by simp)) (by
    intro k hk
    rw [hl.len] at hk
    have := hl.get k hk
    rw [Nat.zero_add]
    exact ⟨this, by rw [List.length_replicate]; exact hnum _ (List.mem_of_getElem? this)⟩)
  rw [Nat.zero_add, hl.len] at h2
  unfold infer at h
  rw [h1] at h
  exact mainLoop_local hI hiter hv (n ^ n + 1) 0 st st' ps x hg h2 hl h

end PartitionMove
end OpenGM
