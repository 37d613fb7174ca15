import Verif.Lemmas.LazyTrial
/-
Lemmas about the loops of the model of LazyFlipper.

The proposition `F` says that this is the first call of `infer` of an object and that the visitor never stops it. Then the loops also establish optimality.
-/
namespace OpenGM.LazyFlip
open Spec Movemaker
variable {V : Type}

/-- The labeling is unchanged or better. -/
def Improves (o : Operation V) (bop : V → V → Bool) (p : Problem V) (x y : List Nat) : Prop := y = x ∨ bop (p.energy o y) (p.energy o x) = true

theorem Improves.refl {o : Operation V} {bop : V → V → Bool} {p : Problem V} (x : List Nat) : Improves o bop p x x := .inl rfl

theorem Improves.trans {o : Operation V} {bop : V → V → Bool} (hso : StrictOrder bop) {p : Problem V} {x y z : List Nat} (h : Improves o bop p x y)
    (h' : Improves o bop p y z) : Improves o bop p x z := by
  rcases h' with rfl | h'
  · exact h
  · rcases h with rfl | h
    · exact .inr h'
    · exact .inr (hso.trans _ _ _ h' h)

/-- The position of a node in the generation of the paths of one length. -/
def position (n : Nat) (nd : Node) : Nat :=
  match nd.parent with
  | none => nd.value
  | some q => q * n + nd.value

section
variable {c : Call V} {p : Problem V} {multi : Bool} {gm : GM V} {F : Prop}

theorem position_lt {n : Nat} {adj : List (List Nat)} (ha : AdjOk n adj) {f : Forest} (hw : WF n adj f) {i : Nat} {nd : Node} (hi : f.nodes[i]? = some nd) {N0 : Nat}
    (hN : ∀ q, nd.parent = some q → q < N0) : position n nd < N0 * n + n := by
  obtain ⟨P, hP⟩ := hw.path hi
  obtain ⟨hcan, nd', h1, _, h3⟩ := hw.path_spec hP
  rw [hi] at h1
  obtain rfl := Option.some.inj h1
  have hv := (hcan.props ha).2.1 nd.value (List.mem_of_getLast? h3)
  unfold position
  cases e : nd.parent with
  | none => simp only; omega
  | some q =>
    have := Nat.mul_le_mul_right n (show q + 1 ≤ N0 from hN q e)
    rw [Nat.add_mul] at this
    simp only
    omega

/-- What holds in the first call while the paths of one length (nodes of level `L`) are generated; `p` is the newest node. -/
structure GenInv (c : Call V) (pr : Problem V) (L : Nat) (lf : LF V) (x : List Nat) (i : Nat) (nd : Node) : Prop where
  linear : Linear lf.forest
  covered : ∀ (j : Nat) P, j < i → Path lf.forest j P → Covered c.o.toOperation c.bop pr x lf.act0 P
  exhausted : ∀ q, nd.parent = some q → ∀ (j : Nat) nj, lf.forest.nodes[j]? = some nj → nj.level + 1 = L → j < q → Exhausted lf.adj lf.forest j

structure GenPost (c : Call V) (pr : Problem V) (L : Nat) (lf : LF V) (x : List Nat) : Prop where
  linear : Linear lf.forest
  covered : ∀ (j : Nat) P, Path lf.forest j P → Covered c.o.toOperation c.bop pr x lf.act0 P
  exhausted : ∀ (j : Nat) nj, lf.forest.nodes[j]? = some nj → nj.level + 1 = L → Exhausted lf.adj lf.forest j
  levels : lf.forest.anchors.length = L + 1
  roots : L = 0 → ∀ v, v < pr.numLabels.length → ∃ i, Path lf.forest i [v]

theorem generationLoop_spec (hF : Fits c p multi) (hnever : F → ∀ j, c.visit j = false) {L N0 : Nat}
    (hcf : (N0 + 1) * (p.numLabels.length + 1) ≤ c.fuel) :
    ∀ (fuel i : Nat) (nd : Node) (lf : LF V) (x : List Nat) (calls : Nat), Good c.o gm p lf x → Newest lf.forest i nd → nd.level = L → N0 ≤ i →
    (∀ (j : Nat) nj, N0 ≤ j → lf.forest.nodes[j]? = some nj → nj.level = L) →
    N0 * p.numLabels.length + p.numLabels.length - position p.numLabels.length nd ≤ fuel →
    lf.forest.nodes.length + (N0 * p.numLabels.length + p.numLabels.length - position p.numLabels.length nd) ≤ (N0 + 1) * (p.numLabels.length + 1) →
    (F → GenInv c p L lf x i nd) →
    ∃ stop lf' calls' y, generationLoop multi c fuel (some i) lf calls = some (stop, lf', calls') ∧ Good c.o gm p lf' y ∧ Kept lf lf' ∧
      Improves c.o.toOperation c.bop p x y ∧ Ext lf.forest lf'.forest ∧ lf'.forest.nodes.length ≤ (N0 + 1) * (p.numLabels.length + 1) ∧ lf'.act1 = lf.act1 ∧
      L < lf'.forest.anchors.length ∧ (F → stop = false ∧ GenPost c p L lf' y) := by
  intro fuel
  induction fuel with
  | zero =>
    intro i nd lf x calls hg hN hL hi0 hlev hfu hsz hinv
    exfalso
    have hpos := position_lt hg.adjOk hg.wf hN.node (N0 := N0) (by
      intro q hq
      obtain ⟨h1, nq, _, h2, h3, _⟩ := hg.wf.child i nd q hN.node hq
      by_contra hge
      have := hlev q nq (by omega) h2
      omega)
    omega
  | succ fuel ih =>
    intro i nd lf x calls hg hN hL hi0 hlev hfu hsz hinv
    obtain ⟨P, hP⟩ := hg.wf.path hN.node
    have hpar : ∀ (f : Forest), WF p.numLabels.length lf.adj f → (∀ (j : Nat) nj, N0 ≤ j → f.nodes[j]? = some nj → nj.level = L) → ∀ (j : Nat) nj, f.nodes[j]? = some nj →
        nj.level = L → ∀ q, nj.parent = some q → q < N0 := by
      intro f hwf hlev j nj hj hjL q hq
      obtain ⟨h1, nq, _, h2, h3, _⟩ := hwf.child j nj q hj hq
      by_contra hge
      have := hlev q nq (by omega) h2
      omega
    obtain ⟨stop, lf1, calls1, y, v1, v2, v3, v4, v5, v6, v7⟩ := visitPath_spec hF hg false calls hP
    have himp : Improves c.o.toOperation c.bop p x y := by
      rcases v7 with ⟨h, _⟩ | ⟨h, _⟩
      · exact .inl h
      · exact .inr h
    have hact1 : lf1.act1 = lf.act1 := v5
    simp only [generationLoop]
    rw [v1]
    have hanch : L < lf1.forest.anchors.length := by
      rw [v4, ← hL]
      exact hg.wf.level i nd hN.node
    cases stop with
    | true =>
      refine ⟨true, lf1, calls1, y, rfl, v2, v3, himp, by rw [v4]; exact Ext.refl _, by rw [v4]; omega, hact1, hanch, ?_⟩
      intro hFr
      obtain ⟨j, hj⟩ := v6 rfl
      rw [hnever hFr j] at hj
      simp at hj
    | false =>
      simp only
      have hnv : lf1.m.gm.numberOfVariables = p.numLabels.length := by rw [GM.numberOfVariables, v2.tracks.stores.labels]
      have hN1 : Newest lf1.forest i nd := by rw [v4]; exact hN
      have hlenle : lf1.forest.nodes.length ≤ c.fuel := by rw [v4]; omega
      -- coverage of all nodes so far
      have hcov : F → ∀ (j : Nat) Q, j ≤ i → Path lf.forest j Q → Covered c.o.toOperation c.bop p y lf1.act0 Q := by
        intro hFr j Q hj hQ
        rcases Nat.lt_or_ge j i with hlt | hge
        · have hs := covered_step (Q := Q) hF.icm hg.share hg.tracks.labeling v7
          rcases (hinv hFr).covered j Q hlt hQ with h | h
          · exact hs.1 h
          · exact .inr (hs.2 h)
        · have : j = i := by omega
          subst this
          rw [hQ.unique hP]
          exact covered_self ((hg.wf.path_spec hP).1.props hg.adjOk).2.2 v7
      rw [hnv]
      rcases nextPath_spec v2.adjOk v2.wf hN1 hlenle with ⟨w1, w2, w3⟩ | ⟨f', nd', w1, w2⟩
      · rw [w1]
        refine ⟨false, lf1, calls1, y, rfl, v2, v3, himp, by rw [v4]; exact Ext.refl _, by rw [v4]; omega, hact1, hanch, ?_⟩
        intro hFr
        have hlin : Linear lf1.forest := by rw [v4]; exact (hinv hFr).linear
        refine ⟨rfl, hlin, ?_, ?_, ?_, ?_⟩
        · intro j Q hQ
          have hjl := path_lt hQ
          have := hN1.last
          rw [v4] at hQ
          exact hcov hFr j Q (by omega) hQ
        · intro j nj hj hjL
          cases hp : nd.parent with
          | none =>
            have := (hg.wf.root i nd hN.node hp).1
            omega
          | some q =>
            obtain ⟨_, nq, _, q2, q3, _⟩ := v2.wf.child i nd q hN1.node hp
            rcases Nat.lt_or_ge j q with hlt | hge
            · rw [v4] at hj ⊢
              rw [v3.adj]
              exact (hinv hFr).exhausted q hp j nj hj hjL hlt
            · exact w3 q hp j (hlin.chain' q2 hj hge (by omega))
        · rw [(hlin.last i nd hN1.node hN1.last).2, hL]
        · intro hL0 v hv
          have hiv := hlin.root i nd hN1.node (by omega)
          have hn := w2 (by omega)
          have hvi : v < lf1.forest.nodes.length := by
            have := hN1.last
            omega
          have hlv : lf1.forest.nodes[v].level = 0 := by
            have := hlin.mono' (List.getElem?_eq_getElem hvi) hN1.node (by omega)
            omega
          have hval := hlin.root v _ (List.getElem?_eq_getElem hvi) hlv
          have := Path.root (List.getElem?_eq_getElem hvi) ((v2.wf.parent_none (List.getElem?_eq_getElem hvi)).mp hlv)
          rw [hval] at this
          exact ⟨v, this⟩
      · rw [w1]
        simp only
        -- the measure increases
        have hlev' : ∀ (j : Nat) nj, N0 ≤ j → f'.nodes[j]? = some nj → nj.level = L := by
          intro j nj hj0 hj
          have hjl := (List.getElem?_eq_some_iff.mp hj).1
          rw [w2.len] at hjl
          rcases Nat.lt_or_ge j lf1.forest.nodes.length with hlt | hge
          · obtain ⟨nj', e1, _, _, e4⟩ := w2.ext j _ (List.getElem?_eq_getElem hlt)
            rw [hj] at e1
            obtain rfl := Option.some.inj e1
            rw [e4]
            apply hlev j _ hj0
            rw [← v4]
            exact List.getElem?_eq_getElem hlt
          · have : j = lf1.forest.nodes.length := by omega
            subst this
            rw [w2.newest.node] at hj
            obtain rfl := Option.some.inj hj
            rw [w2.level, hL]
        have hnd'lt := position_lt v2.adjOk w2.wf w2.newest.node (N0 := N0)
          (hpar f' (by rw [← v3.adj]; exact w2.wf) hlev' _ nd' w2.newest.node (by rw [w2.level, hL]))
        have hndlt := position_lt hg.adjOk hg.wf hN.node (N0 := N0) (hpar lf.forest hg.wf hlev i nd hN.node hL)
        have hinc : position p.numLabels.length nd < position p.numLabels.length nd' := by
          cases hp : nd.parent with
          | none =>
            obtain ⟨r1, r2⟩ := w2.root hp
            unfold position
            rw [hp, r1]
            simp only
            omega
          | some q =>
            obtain ⟨q', r1, r2, _⟩ := w2.child q hp
            have hval : nd.value < p.numLabels.length := by
              obtain ⟨hcan, nd0, e1, _, e3⟩ := hg.wf.path_spec hP
              rw [hN.node] at e1
              obtain rfl := Option.some.inj e1
              exact (hcan.props hg.adjOk).2.1 nd.value (List.mem_of_getLast? e3)
            unfold position
            rw [hp, r1]
            simp only
            rcases r2 with r2 | ⟨rfl, r2⟩
            · have := Nat.mul_le_mul_right p.numLabels.length (show q + 1 ≤ q' from r2)
              rw [Nat.add_mul] at this
              omega
            · omega
        have hg' : Good c.o gm p { lf1 with forest := f' } y := by
          refine ⟨v2.gm, v2.tracks, v2.adjOk, v2.share, ?_, w2.wf⟩
          intro j
          have := v2.tag j
          cases j <;> exact this
        obtain ⟨stop', lf2, calls2, z, i1, i2, i3, i4, i5, i6, i7, i8, i9⟩ := ih lf1.forest.nodes.length nd' { lf1 with forest := f' } y calls1 hg' w2.newest (by rw [w2.level, hL])
          (by rw [v4]; have := hN.last; omega) hlev' (by omega) (by simp only; rw [w2.len, v4]; omega) (by
            intro hFr
            have hlin : Linear lf1.forest := by rw [v4]; exact (hinv hFr).linear
            refine ⟨w2.linear hlin, ?_, ?_⟩
            · intro j Q hj hQ
              simp only at hQ
              have hQ' := w2.ext.path_old v2.wf hj hQ
              rw [v4] at hQ'
              exact hcov hFr j Q (by have := hN1.last; omega) hQ'
            · intro q' hq' j nj hj hjL hlt
              simp only at hj
              have hjlen : j < lf1.forest.nodes.length := by
                have hne : j ≠ lf1.forest.nodes.length := by
                  rintro rfl
                  rw [w2.newest.node] at hj
                  obtain rfl := Option.some.inj hj
                  have := w2.level
                  omega
                have := (List.getElem?_eq_some_iff.mp hj).1
                rw [w2.len] at this
                omega
              obtain ⟨nj', e1, _, _, e4⟩ := w2.ext j _ (List.getElem?_eq_getElem hjlen)
              rw [hj] at e1
              obtain rfl := Option.some.inj e1
              simp only
              apply w2.ext.exhausted v2.wf hjlen
              cases hp : nd.parent with
              | none =>
                have := (hg.wf.root i nd hN.node hp).1
                omega
              | some q =>
                obtain ⟨q'', r1, r2, r3⟩ := w2.child q hp
                rw [hq'] at r1
                obtain rfl := Option.some.inj r1
                obtain ⟨_, nq, _, q2, q3, _⟩ := v2.wf.child i nd q hN1.node hp
                rcases Nat.lt_or_ge j q with hltq | hge
                · have hx := (hinv hFr).exhausted q hp j (lf1.forest.nodes[j]) (by rw [← v4]; exact List.getElem?_eq_getElem hjlen) (by omega) hltq
                  rw [v3.adj, v4]
                  exact hx
                · exact r3 j (hlin.chain' q2 (List.getElem?_eq_getElem hjlen) hge (by omega)) hlt)
        refine ⟨stop', lf2, calls2, z, i1, i2, v3.trans (Kept.trans (b := { lf1 with forest := f' }) ⟨rfl, rfl, rfl⟩ i3), himp.trans hF.icm.order i4, ?_, i6, by rw [i7]; exact hact1, i8, i9⟩
        rw [← v4]
        exact w2.ext.trans i5

/-! ### all active paths -/

theorem passLoop_spec (hF : Fits c p multi) (hnever : F → ∀ j, c.visit j = false) (cur : Bool) :
    ∀ (fuel i : Nat) (nd : Node) (lf : LF V) (x : List Nat) (calls : Nat), Good c.o gm p lf x → lf.forest.nodes[i]? = some nd →
    lf.forest.nodes.length * lf.forest.nodes.length + lf.forest.nodes.length < c.fuel →
    remaining lf.forest i nd.level < fuel →
    (F → Linear lf.forest ∧ ∀ (j : Nat) P, Path lf.forest j P →
      Covered c.o.toOperation c.bop p x (lf.act (!cur)) P ∨ (i ≤ j ∧ Meets (lf.act cur) P)) →
    ∃ stop lf' calls' y, passLoop multi c cur fuel (some i) lf calls = some (stop, lf', calls') ∧ Good c.o gm p lf' y ∧ Kept lf lf' ∧
      lf'.forest = lf.forest ∧ lf'.act cur = lf.act cur ∧
      ((y = x ∧ lf'.act (!cur) = lf.act (!cur)) ∨ c.bop (p.energy c.o.toOperation y) (p.energy c.o.toOperation x) = true) ∧
      (F → stop = false ∧ ∀ (j : Nat) P, Path lf'.forest j P → Covered c.o.toOperation c.bop p y (lf'.act (!cur)) P) := by
  intro fuel
  induction fuel with
  | zero => intro i nd lf x calls hg hi hcf hfu; omega
  | succ fuel ih =>
    intro i nd lf x calls hg hi hcf hfu hinv
    obtain ⟨P, hP⟩ := hg.wf.path hi
    obtain ⟨stop, lf1, calls1, y, v1, v2, v3, v4, v5, v6, v7⟩ := visitPath_spec hF hg (!cur) calls hP
    rw [Bool.not_not] at v5
    have himp : (y = x ∧ lf1.act (!cur) = lf.act (!cur)) ∨ c.bop (p.energy c.o.toOperation y) (p.energy c.o.toOperation x) = true := by
      rcases v7 with ⟨h, _, h'⟩ | ⟨h, _⟩
      · exact .inl ⟨h, h'⟩
      · exact .inr h
    have hcomb : ∀ (lf2 : LF V) z, ((z = y ∧ lf2.act (!cur) = lf1.act (!cur)) ∨ c.bop (p.energy c.o.toOperation z) (p.energy c.o.toOperation y) = true) →
        (z = x ∧ lf2.act (!cur) = lf.act (!cur)) ∨ c.bop (p.energy c.o.toOperation z) (p.energy c.o.toOperation x) = true := by
      intro lf2 z h
      rcases h with ⟨rfl, h⟩ | h
      · rcases himp with ⟨rfl, h'⟩ | h'
        · exact .inl ⟨rfl, by rw [h, h']⟩
        · exact .inr h'
      · rcases himp with ⟨rfl, _⟩ | h'
        · exact .inr h
        · exact .inr (hF.icm.order.trans _ _ _ h h')
    -- coverage after the trial
    have hcov : F → ∀ (j : Nat) Q, Path lf.forest j Q → Covered c.o.toOperation c.bop p y (lf1.act (!cur)) Q ∨ (i < j ∧ Meets (lf1.act cur) Q) := by
      intro hFr j Q hQ
      have hs := covered_step (Q := Q) hF.icm hg.share hg.tracks.labeling v7
      rcases (hinv hFr).2 j Q hQ with (h | h) | ⟨h, h'⟩
      · exact .inl (hs.1 h)
      · exact .inl (.inr (hs.2 h))
      · rcases Nat.lt_or_ge i j with hlt | hge
        · right
          rw [v5]
          exact ⟨hlt, h'⟩
        · have : j = i := by omega
          subst this
          left
          rw [hQ.unique hP]
          exact covered_self ((hg.wf.path_spec hP).1.props hg.adjOk).2.2 v7
    simp only [passLoop]
    rw [v1]
    cases stop with
    | true =>
      refine ⟨true, lf1, calls1, y, rfl, v2, v3, v4, v5, himp, ?_⟩
      intro hFr
      obtain ⟨j, hj⟩ := v6 rfl
      rw [hnever hFr j] at hj
      simp at hj
    | false =>
      simp only
      have hrem := remaining_le lf1.forest v2.wf i nd.level
      rw [v4] at hrem
      rcases nextActive_spec v2.adjOk v2.wf (v2.tag cur) c.fuel i nd (by rw [v4]; exact hi) (by rw [v4]; omega) with ⟨a1, a2⟩ | ⟨q, nq, a1, a2, a3, a4⟩
      · rw [a1]
        refine ⟨false, lf1, calls1, y, by cases fuel <;> rfl, v2, v3, v4, v5, himp, ?_⟩
        intro hFr
        refine ⟨rfl, ?_⟩
        intro j Q hQ
        have hQ' := hQ
        rw [v4] at hQ'
        rcases hcov hFr j Q hQ' with h | ⟨h, h'⟩
        · exact h
        · exact absurd h' (a2 (by rw [v4]; exact (hinv hFr).1) j Q h hQ)
      · rw [a1]
        simp only
        obtain ⟨stop', lf2, calls2, z, i1, i2, i3, i4, i5, i6, i7⟩ := ih q nq lf1 y calls1 v2 a2 (by rw [v4]; exact hcf) (by rw [v4] at a3; rw [v4]; omega) (by
          intro hFr
          have hlin : Linear lf1.forest := by rw [v4]; exact (hinv hFr).1
          refine ⟨hlin, ?_⟩
          intro j Q hQ
          have hQ' := hQ
          rw [v4] at hQ'
          rcases hcov hFr j Q hQ' with h | ⟨h, h'⟩
          · exact .inl h
          · right
            refine ⟨?_, h'⟩
            by_contra hlt
            exact (a4 hlin).2 j Q h (by omega) hQ h')
        exact ⟨stop', lf2, calls2, z, i1, i2, v3.trans i3, by rw [i4, v4], by rw [i5, v5], hcomb lf2 z i6, i7⟩

/-- Which of the two lists have active variables. -/
noncomputable def weight (t0 t1 : Tagging Bool) : Nat := open Classical in if ∃ v, On t1 v then 2 else if ∃ v, On t0 v then 1 else 0

theorem weight_le (t0 t1 : Tagging Bool) : weight t0 t1 ≤ 2 := by unfold weight; split_ifs <;> omega

theorem activeLoop_spec (hF : Fits c p multi) (hnever : F → ∀ j, c.visit j = false) :
    ∀ (fuel : Nat) (cur : Bool) (lf : LF V) (x : List Nat) (calls : Nat), Good c.o gm p lf x →
    lf.forest.nodes.length * lf.forest.nodes.length + lf.forest.nodes.length < c.fuel →
    3 * Icm.rank c.o.toOperation c.bop p x + weight (lf.act cur) (lf.act (!cur)) < fuel →
    (F → Linear lf.forest ∧ (∀ v, v < p.numLabels.length → ∃ i, Path lf.forest i [v]) ∧ (∀ v, ¬ On (lf.act (!cur)) v) ∧
      ∀ (j : Nat) P, Path lf.forest j P → Covered c.o.toOperation c.bop p x (lf.act cur) P) →
    ∃ stop lf' calls' y, activeLoop multi c fuel cur lf calls = some (stop, lf', calls') ∧ Good c.o gm p lf' y ∧ Kept lf lf' ∧
      lf'.forest = lf.forest ∧ Improves c.o.toOperation c.bop p x y ∧
      (F → stop = false ∧ (∀ i v, ¬ On (lf'.act i) v) ∧ ∀ (j : Nat) P, Path lf'.forest j P → NI c.o.toOperation c.bop p y P) := by
  intro fuel
  induction fuel with
  | zero => intro cur lf x calls hg hcf hfu; omega
  | succ fuel ih =>
    intro cur lf x calls hg hcf hfu hinv
    simp only [activeLoop]
    rcases firstActive_spec hg.wf (hg.tag cur) (fuel := c.fuel) (by omega) with ⟨a1, a2⟩ | ⟨q, nq, a1, a2, a3, a4⟩
    · rw [a1]
      refine ⟨false, lf, calls, x, rfl, hg, Kept.refl _, rfl, .inl rfl, ?_⟩
      intro hFr
      obtain ⟨b1, b2, b3, b4⟩ := hinv hFr
      have hno : ∀ v, ¬ On (lf.act cur) v := by
        intro v hon
        have hv := hon.lt (d := 0) (hg.tag cur) rfl
        obtain ⟨i, hi⟩ := b2 v hv
        obtain ⟨_, nd, e1, e2, e3⟩ := hg.wf.path_spec hi
        simp only [List.length_singleton] at e2
        simp only [List.getLast?_singleton, Option.some.injEq] at e3
        exact a2 b1 i nd e1 (by omega) (by rw [← e3]; exact hon)
      refine ⟨rfl, ?_, ?_⟩
      · intro i v
        rcases (by cases i <;> cases cur <;> simp : i = cur ∨ i = !cur) with rfl | rfl
        · exact hno v
        · exact b3 v
      · intro j P hP
        rcases b4 j P hP with h | ⟨v, _, h⟩
        · exact h
        · exact absurd h (hno v)
    · rw [a1]
      simp only
      have hrem := remaining_le lf.forest hg.wf q nq.level
      obtain ⟨stop, lf1, calls1, y, p1, p2, p3, p4, p5, p6, p7⟩ := passLoop_spec hF hnever cur c.fuel q nq lf x calls hg a2 hcf (by omega) (by
        intro hFr
        obtain ⟨b1, _, _, b4⟩ := hinv hFr
        refine ⟨b1, ?_⟩
        intro j P hP
        rcases b4 j P hP with h | h
        · exact .inl (.inl h)
        · right
          refine ⟨?_, h⟩
          by_contra hlt
          exact a4 b1 j P (by omega) hP h)
      have hun := tagOk_untag (p2.tag cur)
      rw [p1]
      simp only
      rw [hun]
      simp only
      have hg1 : Good c.o gm p (lf1.setAct cur (Tagging.make false p.numLabels.length)) y := p2.setAct cur (tagOk_make false _)
      have himp : Improves c.o.toOperation c.bop p x y := by
        rcases p6 with ⟨h, _⟩ | h
        · exact .inl h
        · exact .inr h
      cases stop with
      | true =>
        rw [if_pos rfl]
        refine ⟨true, _, calls1, y, rfl, hg1, p3.trans (Kept.setAct _ _), by rw [setAct_forest, p4], himp, ?_⟩
        intro hFr
        have := (p7 hFr).1
        simp at this
      | false =>
        rw [if_neg (by simp)]
        have hw : weight ((lf1.setAct cur (Tagging.make false p.numLabels.length)).act (!cur)) ((lf1.setAct cur (Tagging.make false p.numLabels.length)).act (!!cur)) ≤ 1 := by
          rw [Bool.not_not, act_setAct_same]
          unfold weight
          rw [if_neg (by rintro ⟨v, h⟩; exact on_make h)]
          split <;> omega
        have hmeas : 3 * Icm.rank c.o.toOperation c.bop p y +
            weight ((lf1.setAct cur (Tagging.make false p.numLabels.length)).act (!cur)) ((lf1.setAct cur (Tagging.make false p.numLabels.length)).act (!!cur)) < fuel := by
          rcases p6 with ⟨e1, e2⟩ | h
          · subst e1
            by_cases hnext : ∃ v, On (lf.act (!cur)) v
            · have : weight (lf.act cur) (lf.act (!cur)) = 2 := by unfold weight; rw [if_pos hnext]
              omega
            · have h1 : weight (lf.act cur) (lf.act (!cur)) = 1 := by unfold weight; rw [if_neg hnext, if_pos ⟨_, a3⟩]
              have h2 : weight ((lf1.setAct cur (Tagging.make false p.numLabels.length)).act (!cur))
                  ((lf1.setAct cur (Tagging.make false p.numLabels.length)).act (!!cur)) = 0 := by
                rw [Bool.not_not, act_setAct_same, act_setAct_other, e2]
                unfold weight
                rw [if_neg (by rintro ⟨v, h⟩; exact on_make h), if_neg hnext]
              omega
          · have := Icm.rank_lt hF.icm.order p2.tracks.labeling h
            omega
        obtain ⟨stop', lf2, calls2, z, i1, i2, i3, i4, i5, i6⟩ := ih (!cur) _ y calls1 hg1 (by rw [setAct_forest, p4]; exact hcf) hmeas (by
          intro hFr
          obtain ⟨b1, b2, b3, b4⟩ := hinv hFr
          rw [setAct_forest, Bool.not_not, act_setAct_same, act_setAct_other]
          refine ⟨by rw [p4]; exact b1, by rw [p4]; exact b2, fun v => on_make, (p7 hFr).2⟩)
        refine ⟨stop', lf2, calls2, z, i1, i2, p3.trans (Kept.trans (Kept.setAct _ _) i3), by rw [i4, setAct_forest, p4], himp.trans hF.icm.order i5, i6⟩

end

/-! ### all lengths -/

theorem Linear.anchor_le {f : Forest} (h : Linear f) : ∀ (j : Nat) nd, f.nodes[j]? = some nd → ∃ a : Nat, f.anchors[nd.level]? = some a ∧ a ≤ j
  | 0, nd, hj => by
    obtain ⟨h1, h2⟩ := h.first nd hj
    exact ⟨0, by rw [h1]; exact h2, le_rfl⟩
  | j + 1, nd, hj => by
    have hl : j < f.nodes.length := by have := (List.getElem?_eq_some_iff.mp hj).1; omega
    rcases h.next j _ nd (List.getElem?_eq_getElem hl) hj with ⟨e1, _⟩ | ⟨e1, _, e3⟩
    · obtain ⟨a, h1, h2⟩ := h.anchor_le j _ (List.getElem?_eq_getElem hl)
      exact ⟨a, by rw [e1]; exact h1, by omega⟩
    · exact ⟨j + 1, by rw [e1]; exact e3, le_rfl⟩

theorem Linear.from_anchor {n : Nat} {adj : List (List Nat)} {f : Forest} (h : Linear f) (hw : WF n adj f) {j l a : Nat} {nd : Node} (hj : f.nodes[j]? = some nd)
    (hl : nd.level = l) (ha : f.anchors[l]? = some a) : Chain f a j := by
  obtain ⟨a', h1, h2⟩ := h.anchor_le j nd hj
  rw [hl, ha] at h1
  obtain rfl := Option.some.inj h1
  obtain ⟨na, n1, n2⟩ := hw.anchor l a ha
  exact h.chain' n1 hj h2 (by omega)

theorem le_grown (n s : Nat) : s < grown n s := by
  unfold grown
  have := Nat.le_mul_of_pos_right (s + 1) (show 0 < n + 1 by omega)
  omega

theorem grown_mono {n s t : Nat} (h : s ≤ t) : grown n s ≤ grown n t := Nat.mul_le_mul_right _ (by omega)

theorem le_grownBy (n : Nat) : ∀ k s, s ≤ grownBy n k s
  | 0, _ => le_rfl
  | k + 1, s => le_trans (le_of_lt (le_grown n s)) (le_grownBy n k _)

theorem grownBy_mono {n : Nat} : ∀ k {s t : Nat}, s ≤ t → grownBy n k s ≤ grownBy n k t
  | 0, _, _, h => h
  | k + 1, _, _, h => grownBy_mono k (grown_mono h)

/-- All paths of length at most `k` are in the forest. -/
def Complete (n : Nat) (adj : List (List Nat)) (f : Forest) (k : Nat) : Prop := ∀ P, Canon n adj P → P.length ≤ k → ∃ i, Path f i P

theorem canon_length {n : Nat} {adj : List (List Nat)} (ha : AdjOk n adj) {P : List Nat} (h : Canon n adj P) : P.length ≤ n := by
  obtain ⟨h1, h2, _⟩ := h.props ha
  have := (List.subperm_of_subset h1 (fun v hv => List.mem_range.mpr (h2 v hv))).length_le
  rwa [List.length_range] at this

/-- If no path has length `k + 1`, then none is longer. -/
theorem canon_shorter {n : Nat} {adj : List (List Nat)} {k : Nat} (hk : 0 < k) (hno : ∀ P, Canon n adj P → P.length ≠ k + 1) {P : List Nat} (h : Canon n adj P) :
    P.length ≤ k := by
  induction h with
  | single _ => rw [List.length_singleton]; omega
  | snoc hP hc ih =>
    have := hno _ (Canon.snoc hP hc)
    rw [List.length_append, List.length_singleton] at this ⊢
    omega

section
variable {c : Call V} {p : Problem V} {multi : Bool} {gm : GM V} {F : Prop}

/-- What holds in the first call before the paths of length `length` are generated. -/
structure LenInv (c : Call V) (pr : Problem V) (length : Nat) (lf : LF V) (x : List Nat) : Prop where
  linear : Linear lf.forest
  levels : lf.forest.anchors.length + 1 = length
  complete : Complete pr.numLabels.length lf.adj lf.forest (length - 1)
  off : ∀ i v, ¬ On (lf.act i) v
  ni : ∀ (j : Nat) P, Path lf.forest j P → NI c.o.toOperation c.bop pr x P
  size : length ≤ lf.maxSize

theorem LenInv.all {length : Nat} {lf : LF V} {x : List Nat} (h : LenInv c p length lf x) (hle : ∀ P, Canon p.numLabels.length lf.adj P → P.length ≤ length - 1)
    {P : List Nat} (hP : Canon p.numLabels.length lf.adj P) : NI c.o.toOperation c.bop p x P := by
  obtain ⟨i, hi⟩ := h.complete P hP (hle P hP)
  exact h.ni i P hi

theorem lengthLoop_spec (hF : Fits c p multi) (hnever : F → ∀ j, c.visit j = false) (hn : 0 < p.numLabels.length) {B : Nat}
    (hB : B * B + B + 3 * Icm.fuel gm + 3 ≤ c.fuel) :
    ∀ (fuel length : Nat) (lf : LF V) (x : List Nat) (calls : Nat), Good c.o gm p lf x → 1 ≤ length → length ≤ lf.forest.anchors.length + 1 →
    p.numLabels.length + 1 - length < fuel → grownBy p.numLabels.length (p.numLabels.length + 1 - length) lf.forest.nodes.length ≤ B →
    (F → LenInv c p length lf x) →
    ∃ lf' y, lengthLoop multi c fuel length lf calls = some lf' ∧ Good c.o gm p lf' y ∧ Kept lf lf' ∧ Improves c.o.toOperation c.bop p x y ∧
      (F → ∀ P, Canon p.numLabels.length lf'.adj P → P.length ≤ lf'.maxSize → NI c.o.toOperation c.bop p y P) := by
  intro fuel
  induction fuel with
  | zero => intro length lf x calls hg h1 h2 h3; omega
  | succ fuel ih =>
    intro length lf x calls hg hlen1 hlen2 hfu hsz hinv
    simp only [lengthLoop]
    cases hv : c.visit calls with
    | true =>
      rw [if_pos rfl]
      refine ⟨lf, x, rfl, hg, Kept.refl _, .inl rfl, ?_⟩
      intro hFr
      rw [hnever hFr calls] at hv
      simp at hv
    | false =>
      rw [if_neg (by simp)]
      have hnv : lf.m.gm.numberOfVariables = p.numLabels.length := by rw [GM.numberOfVariables, hg.tracks.stores.labels]
      rw [hnv]
      rcases Nat.lt_or_ge p.numLabels.length length with hlong | hshort
      · have : firstPath p.numLabels.length lf.adj c.fuel lf.forest length = some none := by
          unfold firstPath
          rw [if_pos hlong]
        rw [this]
        refine ⟨lf, x, rfl, hg, Kept.refl _, .inl rfl, ?_⟩
        intro hFr P hP _
        exact (hinv hFr).all (fun Q hQ => by have := canon_length hg.adjOk hQ; omega) hP
      · obtain ⟨k, hk⟩ : ∃ k, p.numLabels.length + 1 - length = k + 1 := ⟨p.numLabels.length - length, by omega⟩
        rw [hk] at hsz
        simp only [grownBy] at hsz
        have hgB := le_trans (le_grownBy p.numLabels.length k _) hsz
        have hBc : B ≤ c.fuel := by omega
        have hlg := le_grown p.numLabels.length lf.forest.nodes.length
        have hfirst : (firstPath p.numLabels.length lf.adj c.fuel lf.forest length = some none ∧ 2 ≤ length ∧
              ∀ a, lf.forest.anchors[length - 2]? = some a → ∀ i, Chain lf.forest a i → Exhausted lf.adj lf.forest i) ∨
            (∃ f' nd', firstPath p.numLabels.length lf.adj c.fuel lf.forest length = some (some (lf.forest.nodes.length, f')) ∧
              FirstStep p.numLabels.length lf.adj lf.forest f' length nd') := by
          rcases Nat.lt_or_ge length 2 with h | h
          · have : length = 1 := by omega
            subst this
            exact .inr (firstPath_one hn hg.wf c.fuel)
          · rcases firstPath_spec hg.adjOk hg.wf h hshort hlen2 (fuel := c.fuel) (by omega) with ⟨e1, e2⟩ | e
            · exact .inl ⟨e1, h, e2⟩
            · exact .inr e
        rcases hfirst with ⟨e1, hl2, e2⟩ | ⟨f', nd', e1, e2⟩
        · rw [e1]
          refine ⟨lf, x, rfl, hg, Kept.refl _, .inl rfl, ?_⟩
          intro hFr P hP _
          have hI := hinv hFr
          refine hI.all (fun Q hQ => canon_shorter (by omega) ?_ hQ) hP
          intro R hR hRl
          cases hR with
          | single h => simp at hRl; omega
          | @snoc Q v hQ hc =>
            rw [List.length_append, List.length_singleton] at hRl
            obtain ⟨i, hi⟩ := hI.complete Q hQ (by omega)
            obtain ⟨_, nd, g1, g2, _⟩ := hg.wf.path_spec hi
            have hanc : length - 2 < lf.forest.anchors.length := by have := hI.levels; omega
            have hch := hI.linear.from_anchor hg.wf g1 (l := length - 2) (by omega) (List.getElem?_eq_getElem hanc)
            obtain ⟨ch, nc, k1, k2, k3⟩ := e2 _ (List.getElem?_eq_getElem hanc) i hch Q v hi hc
            obtain ⟨_, nq, _, m1, m2, _⟩ := hg.wf.child ch nc i k1 k2
            rw [g1] at m1
            obtain rfl := Option.some.inj m1
            have := hg.wf.level ch nc k1
            have := hI.levels
            omega
        · rw [e1]
          simp only
          have hg' : Good c.o gm p { lf with forest := f' } x := by
            refine ⟨hg.gm, hg.tracks, hg.adjOk, hg.share, ?_, e2.wf⟩
            intro j
            have := hg.tag j
            cases j <;> exact this
          have hlast := e2.newest.last
          obtain ⟨stop, lf1, calls1, y, s1, s2, s3, s4, s5, s6, s7, s8, s9⟩ := generationLoop_spec (F := F) hF hnever (L := length - 1) (N0 := lf.forest.nodes.length)
            (by unfold grown at hgB; omega) c.fuel lf.forest.nodes.length nd' { lf with forest := f' } x (calls + 1) hg' e2.newest (by have := e2.level; omega) le_rfl (by
              intro j nj hj0 hj
              simp only at hj
              have hjl := (List.getElem?_eq_some_iff.mp hj).1
              rw [e2.len] at hjl
              have : j = lf.forest.nodes.length := by omega
              subst this
              rw [e2.newest.node] at hj
              obtain rfl := Option.some.inj hj
              have := e2.level
              omega) (by
              have : lf.forest.nodes.length * p.numLabels.length + p.numLabels.length ≤ (lf.forest.nodes.length + 1) * (p.numLabels.length + 1) := by
                rw [Nat.add_mul, Nat.mul_add]; omega
              unfold grown at hgB
              omega) (by
              simp only
              rw [e2.len, Nat.add_mul, Nat.mul_add]
              omega) (by
              intro hFr
              have hI := hinv hFr
              refine ⟨e2.linear hI.linear hI.levels, ?_, ?_⟩
              · intro j P hj hP
                exact .inl (hI.ni j P (e2.ext.path_old hg.wf hj hP))
              · intro q hq j nj hj hjL hlt
                simp only at hj
                have hql := (e2.wf.child _ nd' q e2.newest.node hq).1
                obtain ⟨nj', f1, _, _, f4⟩ := e2.ext j _ (List.getElem?_eq_getElem (show j < lf.forest.nodes.length by omega))
                rw [hj] at f1
                obtain rfl := Option.some.inj f1
                have hanc : length - 2 < lf.forest.anchors.length := by have := hI.levels; omega
                simp only
                exact e2.ext.exhausted hg.wf (by omega) (e2.child q hq _ (List.getElem?_eq_getElem hanc) j
                  (hI.linear.from_anchor hg.wf (List.getElem?_eq_getElem (show j < lf.forest.nodes.length by omega)) (by omega) (List.getElem?_eq_getElem hanc)) hlt))
          rw [s1]
          have hk1 : Kept lf lf1 := Kept.trans (b := { lf with forest := f' }) ⟨rfl, rfl, rfl⟩ s3
          cases stop with
          | true =>
            refine ⟨lf1, y, rfl, s2, hk1, s4, ?_⟩
            intro hFr
            have := (s9 hFr).1
            simp at this
          | false =>
            simp only
            have hszg : lf1.forest.nodes.length ≤ grown p.numLabels.length lf.forest.nodes.length := s6
            have hsq : lf1.forest.nodes.length * lf1.forest.nodes.length ≤ B * B := Nat.mul_le_mul (by omega) (by omega)
            have hrank := Icm.rank_lt_fuel c.o c.bop p gm (by rw [← hg.gm]; exact hg.tracks.stores.labels) y
            have hwt := weight_le (lf1.act false) (lf1.act (!false))
            have hcomplete : F → Complete p.numLabels.length lf1.adj lf1.forest length := by
              intro hFr P hP hPl
              have hI := hinv hFr
              have hpost := (s9 hFr).2
              rw [hk1.adj] at hP
              rcases Nat.lt_or_ge P.length length with hlt | hge
              · obtain ⟨i, hi⟩ := hI.complete P hP (by omega)
                exact ⟨i, s5.path (e2.ext.path hi)⟩
              · cases hP with
                | @single v h =>
                  simp only [List.length_singleton] at hge
                  exact hpost.roots (by omega) v h
                | @snoc Q v hQ hc =>
                  rw [List.length_append, List.length_singleton] at hPl hge
                  obtain ⟨i, hi⟩ := hI.complete Q hQ (by omega)
                  have hi1 := s5.path (e2.ext.path hi)
                  obtain ⟨_, nd, g1, g2, _⟩ := s2.wf.path_spec hi1
                  obtain ⟨ch, nc, k1, k2, k3⟩ := hpost.exhausted i nd g1 (by omega) Q v hi1 (by rw [hk1.adj]; exact hc)
                  have := Path.child k1 k2 hi1
                  rw [k3] at this
                  exact ⟨ch, this⟩
            obtain ⟨stop', lf2, calls2, z, t1, t2, t3, t4, t5, t6⟩ := activeLoop_spec (F := F) hF hnever c.fuel false lf1 y calls1 s2 (by omega) (by omega) (by
              intro hFr
              have hI := hinv hFr
              have hpost := (s9 hFr).2
              refine ⟨hpost.linear, ?_, ?_, hpost.covered⟩
              · intro v hv
                exact hcomplete hFr [v] (by exact .single hv) (by simp; omega)
              · intro v
                have := hI.off true v
                have h1 : lf1.act (!false) = lf.act true := s7
                rw [h1]
                exact this)
            rw [t1]
            have hk2 : Kept lf lf2 := hk1.trans t3
            have himp : Improves c.o.toOperation c.bop p x z := s4.trans hF.icm.order t5
            cases stop' with
            | true =>
              refine ⟨lf2, z, rfl, t2, hk2, himp, ?_⟩
              intro hFr
              have := (t6 hFr).1
              simp at this
            | false =>
              simp only
              have hcomplete2 : F → Complete p.numLabels.length lf2.adj lf2.forest length := by
                intro hFr
                rw [t3.adj, t4]
                exact hcomplete hFr
              by_cases hmax : length = lf2.maxSize
              · rw [if_pos hmax]
                refine ⟨lf2, z, rfl, t2, hk2, himp, ?_⟩
                intro hFr P hP hPl
                obtain ⟨i, hi⟩ := hcomplete2 hFr P hP (by omega)
                exact (t6 hFr).2.2 i P hi
              · rw [if_neg hmax]
                obtain ⟨lf3, w, i1, i2, i3, i4, i5⟩ := ih (length + 1) lf2 z calls2 t2 (by omega) (by rw [t4]; omega) (by omega)
                  (by
                    have : p.numLabels.length + 1 - (length + 1) = k := by omega
                    rw [this, t4]
                    exact le_trans (grownBy_mono k hszg) hsz) (by
                  intro hFr
                  have hpost := (s9 hFr).2
                  refine ⟨by rw [t4]; exact hpost.linear, by rw [t4, hpost.levels]; omega, ?_, (t6 hFr).2.1, (t6 hFr).2.2, ?_⟩
                  · exact hcomplete2 hFr
                  · have h1 := (hinv hFr).size
                    have h2 := hk2.maxSize
                    omega)
                exact ⟨lf3, w, i1, i2, hk2.trans i3, himp.trans hF.icm.order i4, i5⟩

end

end OpenGM.LazyFlip
