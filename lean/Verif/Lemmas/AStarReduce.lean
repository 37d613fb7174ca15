import Verif.Lemmas.AStarFirst
import Mathlib.Algebra.BigOperators.Group.Finset.Basic
import Mathlib.Algebra.BigOperators.Group.Finset.Piecewise
import Mathlib.Algebra.Order.BigOperators.Group.Finset
import Mathlib.Tactic.Ring
/-
Lemmas for the fast heuristic of A*: dynamic programming on the tree factors. The loop ends because a forest has two leaves.
-/
namespace OpenGM
namespace AStar
open Spec
variable {V : Type}

/-- Variables of term `i`. -/
def scopeOf (p : Problem V) (i : Nat) : List Nat := match p.terms[i]? with | some t => t.vars | none => []

theorem mem_scopeOf {p : Problem V} {i v : Nat} : v ∈ scopeOf p i ↔ mentions p.terms v i = true := by
  unfold scopeOf mentions
  cases p.terms[i]? <;> simp

/-- The variables of the terms `l`. -/
def touched (p : Problem V) (l : List Nat) : Finset Nat := (l.flatMap (scopeOf p)).toFinset

theorem mem_touched {p : Problem V} {l : List Nat} {v : Nat} : v ∈ touched p l ↔ ∃ i ∈ l, mentions p.terms v i = true := by
  simp only [touched, List.mem_toFinset, List.mem_flatMap, mem_scopeOf]

theorem peelable_filter {p : Problem V} (P : Nat → Bool) : ∀ {l : List Nat}, p.Peelable l → p.Peelable (l.filter P)
  | [], _ => trivial
  | i :: l, h => by
    obtain ⟨⟨t, v, h1, h2, h3⟩, h4⟩ := h
    rw [List.filter_cons]
    split
    · exact ⟨⟨t, v, h1, h2, fun k hk => h3 k (List.mem_filter.mp hk).1⟩, peelable_filter P h4⟩
    · exact peelable_filter P h4

/-- A forest has more vertices than edges. -/
theorem peelable_card {p : Problem V} : ∀ {l : List Nat}, p.Peelable l → l ≠ [] → (∀ i ∈ l, ∀ t : Term V, p.terms[i]? = some t → t.vars.length = 2 ∧ t.vars.Nodup) →
    l.length < (touched p l).card
  | [], _, h, _ => absurd rfl h
  | i :: l, h, _, hpair => by
    obtain ⟨⟨t, v, h1, h2, h3⟩, h4⟩ := h
    by_cases hl : l = []
    · subst hl
      have : touched p [i] = t.vars.toFinset := by simp [touched, scopeOf, h1]
      obtain ⟨a1, a2⟩ := hpair i (by simp) t h1
      rw [this, List.toFinset_card_of_nodup a2, a1]
      simp
    · have ih := peelable_card h4 hl (fun k hk => hpair k (by simp [hk]))
      have hv : v ∉ touched p l := by
        rw [mem_touched]
        rintro ⟨k, hk, hm⟩
        rw [← mem_scopeOf] at hm
        unfold scopeOf at hm
        split at hm
        · next t' ht' => exact h3 k hk t' ht' hm
        · simp at hm
      have hsub : insert v (touched p l) ⊆ touched p (i :: l) := by
        intro u hu
        rcases Finset.mem_insert.mp hu with rfl | hu
        · exact mem_touched.mpr ⟨i, by simp, by simp [mentions, h1, h2]⟩
        · obtain ⟨k, hk, hm⟩ := mem_touched.mp hu
          exact mem_touched.mpr ⟨k, by simp [hk], hm⟩
      have := Finset.card_le_card hsub
      rw [Finset.card_insert_of_notMem hv] at this
      rw [List.length_cons]
      omega

/-- Each edge has two ends. -/
theorem sum_degrees {p : Problem V} (T : Finset Nat) : ∀ (l : List Nat), (∀ i ∈ l, ∃ t : Term V, p.terms[i]? = some t ∧ t.vars.length = 2 ∧ t.vars.Nodup) →
    (∀ i ∈ l, ∀ v, mentions p.terms v i = true → v ∈ T) → ∑ v ∈ T, l.countP (mentions p.terms v) = 2 * l.length
  | [], _, _ => by simp
  | i :: l, hp, hT => by
    have ih := sum_degrees T l (fun k hk => hp k (by simp [hk])) (fun k hk => hT k (by simp [hk]))
    simp only [List.countP_cons]
    rw [Finset.sum_add_distrib, ih]
    obtain ⟨t, h1, h2, h3⟩ := hp i (by simp)
    have hm : ∀ v, mentions p.terms v i = decide (v ∈ t.vars) := fun v => by simp [mentions, h1]
    have : ∑ v ∈ T, (if mentions p.terms v i = true then 1 else 0) = 2 := by
      rw [← Finset.card_filter]
      have heq : T.filter (fun v => mentions p.terms v i = true) = t.vars.toFinset := by
        ext v
        simp only [Finset.mem_filter, hm, decide_eq_true_eq, List.mem_toFinset]
        refine ⟨fun h => h.2, fun h => ⟨hT i (by simp) v (by rw [hm]; simpa using h), h⟩⟩
      rw [heq, List.toFinset_card_of_nodup h3, h2]
    rw [this, List.length_cons]
    omega

/-- Some variable other than `next` has exactly one factor in the queue. -/
theorem exists_leaf {p : Problem V} {l queue : List Nat} (hl : p.Peelable l) (hsub : ∀ i ∈ queue, i ∈ l) (hnd : queue.Nodup) (hne : queue ≠ [])
    (hp : ∀ i ∈ queue, ∃ t : Term V, p.terms[i]? = some t ∧ t.vars.length = 2 ∧ t.vars.Nodup) (next : Nat) :
    ∃ v, v ≠ next ∧ queue.countP (mentions p.terms v) = 1 := by
  by_contra hno
  have hno' : ∀ v, v ≠ next → queue.countP (mentions p.terms v) ≠ 1 := fun v hv h => hno ⟨v, hv, h⟩
  have hF : queue.length < (touched p queue).card := by
    have hsub' : queue ⊆ l.filter (fun i => decide (i ∈ queue)) := fun i hi => List.mem_filter.mpr ⟨hsub i hi, by simpa using hi⟩
    have h1 : queue.length ≤ (l.filter (fun i => decide (i ∈ queue))).length := (List.subperm_of_subset hnd hsub').length_le
    have h2 := peelable_card (peelable_filter (fun i => decide (i ∈ queue)) hl)
      (fun h => by
        rw [h] at hsub'
        exact hne (List.subset_nil.mp hsub'))
      (fun i hi t ht => by
        have hi' : i ∈ queue := by simpa using (List.mem_filter.mp hi).2
        obtain ⟨t', a, b, c⟩ := hp i hi'
        rw [a] at ht
        cases ht
        exact ⟨b, c⟩)
    have h3 : touched p (l.filter (fun i => decide (i ∈ queue))) ⊆ touched p queue := by
      intro v hv
      obtain ⟨i, hi, hm⟩ := mem_touched.mp hv
      exact mem_touched.mpr ⟨i, by simpa using (List.mem_filter.mp hi).2, hm⟩
    have := Finset.card_le_card h3
    omega
  have hsum := sum_degrees (touched p queue) queue hp (fun i hi v hm => mem_touched.mpr ⟨i, hi, hm⟩)
  have hlow : ∑ v ∈ touched p queue, 2 ≤ ∑ v ∈ touched p queue, (queue.countP (mentions p.terms v) + if v = next then 1 else 0) := by
    apply Finset.sum_le_sum
    intro v hv
    obtain ⟨i, hi, hm⟩ := mem_touched.mp hv
    have hpos : 0 < queue.countP (mentions p.terms v) := List.countP_pos_iff.mpr ⟨i, hi, hm⟩
    by_cases h : v = next
    · rw [if_pos h]; omega
    · have := hno' v h
      omega
  rw [Finset.sum_add_distrib, hsum, Finset.sum_const] at hlow
  have hone : ∑ v ∈ touched p queue, (if v = next then 1 else 0) ≤ 1 := by
    rw [Finset.sum_ite_eq']
    split <;> omega
  rw [show (touched p queue).card • 2 = (touched p queue).card * 2 from rfl] at hlow
  omega

/-- The state during the dynamic programming. -/
structure RedInv (e : Env V) (s : Solver V) (p : Problem V) (R : V → V → Prop) (labels : List (Option Nat)) (next : Nat) (q : Pass V) (D : List Nat → V) : Prop where
  len : q.energy.length = p.numLabels.length
  free : ∀ (v : Nat) (row : List V), labels[v]? = some none → q.energy[v]? = some row → p.numLabels[v]? = some row.length ∨
    (v ≠ next ∧ row.length = 1 ∧ ∀ i ∈ q.queue, mentions p.terms v i = false)
  fixed : ∀ (v l : Nat) (row : List V), labels[v]? = some (some l) → q.energy[v]? = some row → (∃ y, row = [y]) ∨ ∃ m, 0 < m ∧ row = List.replicate m e.o.neutral
  queue : ∀ i ∈ q.queue, TreeEdge s p labels i
  nodup : q.queue.Nodup
  degLen : q.degree.length = p.numLabels.length
  degree : ∀ v d : Nat, q.degree[v]? = some d → d = q.queue.countP (mentions p.terms v) + if v = next then p.numLabels.length else 0
  value : ∀ z, Fits p labels z → R (e.o.op (rowsValue e.o z q.energy 0) (total e.o (q.queue.map (termVal e.o p z)))) (D z)

variable {e : Env V} {s : Solver V} {p : Problem V} {R : V → V → Prop} {labels : List (Option Nat)} {next : Nat} {q : Pass V} {D : List Nat → V}

theorem eliminate_spec (hc : HCtx e s p) (hr : Rel e.o R) (hR : TwoOpen labels → ∀ a b, e.bop b a = false → R a b) {id leaf other n m : Nat} {rest : List Nat}
    (hq : q.queue = id :: rest) (h : RedInv e s p R labels next q D) {t : Term V} (ht : p.terms[id]? = some t) (hvars : ∀ u, u ∈ t.vars ↔ u = leaf ∨ u = other)
    (hne : leaf ≠ other) (hl1 : labels[leaf]? = some none) (hl2 : labels[other]? = some none) (hn : p.numLabels[leaf]? = some n) (hm : p.numLabels[other]? = some m)
    (hnext : next < p.numLabels.length) (hdeg : q.degree[leaf]? = some 1) {f : Nat → Nat → Option V} {g : Nat → Nat → V} (hf : ∀ j k, j < n → k < m → f j k = some (g j k))
    (hg : ∀ z, t.value z = g (z.getD leaf 0) (z.getD other 0)) :
    ∃ q', eliminate e s.gm f leaf other { q with queue := rest } = some q' ∧ q'.queue = rest ∧ RedInv e s p R labels next q' D := by
  have hlt1 : leaf < p.numLabels.length := (List.getElem?_eq_some_iff.mp hn).1
  have hlt2 : other < p.numLabels.length := (List.getElem?_eq_some_iff.mp hm).1
  have hmen : ∀ u, mentions p.terms u id = decide (u = leaf ∨ u = other) := fun u => by simp [mentions, ht, hvars]
  have hd2 : other < q.degree.length := by rw [h.degLen]; exact hlt2
  have hd1 : leaf < q.degree.length := by rw [h.degLen]; exact hlt1
  have hcount := h.degree leaf 1 hdeg
  rw [hq, countP_cons_mentions, hmen, if_pos (by simp)] at hcount
  have hleafNext : leaf ≠ next := by
    intro hx
    rw [if_pos hx] at hcount
    omega
  rw [if_neg hleafNext] at hcount
  have hrest0 : rest.countP (mentions p.terms leaf) = 0 := by omega
  have hrestLeaf : ∀ i ∈ rest, mentions p.terms leaf i = false := by
    intro i hi
    have := List.countP_eq_zero.mp hrest0 i hi
    simpa using this
  -- the two rows
  have r1 : q.energy[leaf]? = some (q.energy[leaf]'(by rw [h.len]; exact hlt1)) := List.getElem?_eq_getElem _
  generalize q.energy[leaf]'(by rw [h.len]; exact hlt1) = row1 at r1
  have r2 : q.energy[other]? = some (q.energy[other]'(by rw [h.len]; exact hlt2)) := List.getElem?_eq_getElem _
  generalize q.energy[other]'(by rw [h.len]; exact hlt2) = row2 at r2
  have len1 : row1.length = n := by
    rcases h.free leaf row1 hl1 r1 with hx | ⟨_, _, hx⟩
    · rw [hn] at hx; exact (Option.some.inj hx).symm
    · have := hx id (by rw [hq]; simp)
      rw [hmen] at this
      simp at this
  have len2 : row2.length = m := by
    rcases h.free other row2 hl2 r2 with hx | ⟨_, _, hx⟩
    · rw [hm] at hx; exact (Option.some.inj hx).symm
    · have := hx id (by rw [hq]; simp)
      rw [hmen] at this
      simp at this
  -- the best values
  have hb : ∀ k, ∃ b, k < m → bestOver e (fun j => f j k) row1 (List.range n) e.accNeutral = some b ∧
      ∀ j < n, e.bop (e.o.op (g j k) (pick e.o.neutral row1 j)) b = false := by
    intro k
    by_cases hk : k < m
    · obtain ⟨b, b1, _, b3⟩ := bestOver_spec hc.order (f := fun j => f j k) (g := fun j => g j k) (row := row1) (List.range n) e.accNeutral
        (fun j hj => ⟨hf j k (List.mem_range.mp hj) hk, by rw [len1]; exact List.mem_range.mp hj⟩)
      exact ⟨b, fun _ => ⟨b1, fun j hj => b3 j (List.mem_range.mpr hj)⟩⟩
    · exact ⟨e.o.neutral, fun hk' => absurd hk' hk⟩
  choose best hbest using hb
  obtain ⟨row', a1, a2, a3⟩ := addEach_spec e.o (gm := s.gm) (f := fun k => bestOver e (fun j => f j k) row1 (List.range n) e.accNeutral) (g := best) r2
    (by rw [hc.stores.labels]; exact hm) len2 (fun k hk => (hbest k hk).1)
  refine ⟨⟨(q.energy.set other row').set leaf [e.o.neutral], (q.degree.set leaf (1 - 1)).set other (q.degree[other] - 1), rest⟩, ?_, rfl, ?_⟩
  · unfold eliminate
    simp only
    rw [r1, hc.stores.labels, hn, hdeg, List.getElem?_eq_getElem hd2]
    simp only
    rw [a1]
  · have hlenE : leaf < q.energy.length := by rw [h.len]; exact hlt1
    have hlenE2 : other < q.energy.length := by rw [h.len]; exact hlt2
    have hget : ∀ u : Nat, ((q.energy.set other row').set leaf [e.o.neutral])[u]? =
        if u = leaf then some [e.o.neutral] else if u = other then some row' else q.energy[u]? := by
      intro u
      by_cases hu : u = leaf
      · rw [if_pos hu, hu, List.getElem?_set_self (by simpa using hlenE)]
      · rw [if_neg hu, List.getElem?_set_ne (fun h => hu h.symm)]
        by_cases hu' : u = other
        · rw [if_pos hu', hu', List.getElem?_set_self hlenE2]
        · rw [if_neg hu', List.getElem?_set_ne (fun h => hu' h.symm)]
    refine ⟨by simpa using h.len, ?_, ?_, fun i hi => h.queue i (by rw [hq]; simp [hi]), ?_, by simpa using h.degLen, ?_, ?_⟩
    · intro u row hu hrow
      simp only at hrow
      rw [hget] at hrow
      by_cases hul : u = leaf
      · rw [if_pos hul] at hrow
        cases hrow
        right
        exact ⟨by rw [hul]; exact hleafNext, rfl, by rw [hul]; exact hrestLeaf⟩
      · rw [if_neg hul] at hrow
        by_cases huo : u = other
        · rw [if_pos huo] at hrow
          cases hrow
          left
          rw [huo, a2]
          exact hm
        · rw [if_neg huo] at hrow
          rcases h.free u row hu hrow with hx | ⟨x1, x2, x3⟩
          · exact Or.inl hx
          · exact Or.inr ⟨x1, x2, fun i hi => x3 i (by rw [hq]; simp [hi])⟩
    · intro u l row hu hrow
      simp only at hrow
      rw [hget] at hrow
      by_cases hul : u = leaf
      · rw [hul, hl1] at hu; cases hu
      · rw [if_neg hul] at hrow
        by_cases huo : u = other
        · rw [huo, hl2] at hu; cases hu
        · rw [if_neg huo] at hrow
          exact h.fixed u l row hu hrow
    · have := h.nodup
      rw [hq] at this
      exact (List.nodup_cons.mp this).2
    · intro u d hd
      simp only at hd ⊢
      have hother := h.degree other _ (List.getElem?_eq_getElem hd2)
      rw [hq, countP_cons_mentions, hmen, if_pos (by simp)] at hother
      by_cases huo : u = other
      · subst huo
        rw [List.getElem?_set_self (by simpa using hd2)] at hd
        cases hd
        omega
      · rw [List.getElem?_set_ne (fun h => huo h.symm)] at hd
        by_cases hul : u = leaf
        · subst hul
          rw [List.getElem?_set_self hd1] at hd
          cases hd
          rw [hrest0, if_neg hleafNext]
        · rw [List.getElem?_set_ne (fun h => hul h.symm)] at hd
          have := h.degree u d hd
          rw [hq, countP_cons_mentions, hmen, if_neg (by simp [hul, huo])] at this
          omega
    · intro z hz
      simp only
      have hz1 := hz.lt hn
      have hz2 := hz.lt hm
      rw [List.set_comm _ _ hne.symm]
      have e0 : rowsValue e.o z ((q.energy.set leaf [e.o.neutral]).set leaf row1) 0 =
          e.o.op (rowsValue e.o z (q.energy.set leaf [e.o.neutral]) 0) (pick e.o.neutral row1 (z.getD leaf 0)) :=
        rowsValue_set hc.comm z _ _ 0 leaf [e.o.neutral] row1 (by rw [List.getElem?_set_self hlenE])
          (by rw [Nat.zero_add, pick_single, hc.comm.neutral_left])
      rw [List.set_set, show q.energy.set leaf row1 = q.energy from List.ext_getElem? (fun u => by
        by_cases hu : u = leaf
        · rw [hu, List.getElem?_set_self hlenE, r1]
        · rw [List.getElem?_set_ne (fun h => hu h.symm)])] at e0
      have e1 : rowsValue e.o z ((q.energy.set leaf [e.o.neutral]).set other row') 0 =
          e.o.op (rowsValue e.o z (q.energy.set leaf [e.o.neutral]) 0) (best (z.getD other 0)) :=
        rowsValue_set hc.comm z _ _ 0 other row2 row' (by rw [List.getElem?_set_ne hne, r2]) (by rw [Nat.zero_add]; exact a3 _ hz2)
      rw [e1]
      have hv := h.value z hz
      rw [hq, List.map_cons, total_cons hc.comm, e0] at hv
      have htv : termVal e.o p z id = g (z.getD leaf 0) (z.getD other 0) := by rw [← hg]; simp [termVal, ht]
      rw [htv] at hv
      refine hr.trans _ _ _ ?_ hv
      have hlow := hR ⟨leaf, other, hne, hl1, hl2⟩ _ _ ((hbest _ hz2).2 _ hz1)
      have := hr.mono _ _ (total e.o (rest.map (termVal e.o p z))) (hr.mono_left hc.comm (c := rowsValue e.o z (q.energy.set leaf [e.o.neutral]) 0) hlow)
      convert this using 1
      simp only [hc.comm.assoc]
      rw [← hc.comm.assoc (pick e.o.neutral row1 (z.getD leaf 0)), hc.comm.comm (pick e.o.neutral row1 (z.getD leaf 0)), hc.comm.assoc]

/-- One of the ends of factor `i` has degree one. -/
def Ready (p : Problem V) (q : Pass V) (i : Nat) : Prop :=
  ∃ (t : Term V) (v w : Nat), p.terms[i]? = some t ∧ t.vars = [v, w] ∧ (q.degree[v]? = some 1 ∨ q.degree[w]? = some 1)

theorem exists_ready (hc : HCtx e s p) {l : List Nat} (hl : p.Peelable l) (hsub : ∀ i, TreeEdge s p labels i → i ∈ l) (h : RedInv e s p R labels next q D)
    (hne : q.queue ≠ []) : ∃ i ∈ q.queue, Ready p q i := by
  have hp : ∀ i ∈ q.queue, ∃ t : Term V, p.terms[i]? = some t ∧ t.vars.length = 2 ∧ t.vars.Nodup := by
    intro i hi
    obtain ⟨t, v, w, h1, h2, _, _⟩ := (h.queue i hi).ends
    obtain ⟨hi', ht⟩ := List.getElem?_eq_some_iff.mp h1
    have hf := hc.stores.factors.length_eq
    have hm := List.Forall₂.get hc.stores.factors (i := i) (by omega) hi'
    simp only [List.get_eq_getElem, ht] at hm
    exact ⟨t, h1, by rw [h2]; rfl, hm.sorted.imp (fun hx => Nat.ne_of_lt hx)⟩
  obtain ⟨v, hv, hcnt⟩ := exists_leaf hl (fun i hi => hsub i (h.queue i hi)) h.nodup hne hp next
  obtain ⟨i, hi, hm⟩ := List.countP_pos_iff.mp (by omega : 0 < q.queue.countP (mentions p.terms v))
  obtain ⟨t, a, b, h1, h2, h3, h4⟩ := (h.queue i hi).ends
  refine ⟨i, hi, t, a, b, h1, h2, ?_⟩
  have hmem : v = a ∨ v = b := by simpa [mentions, h1, h2] using hm
  have hi' := (List.getElem?_eq_some_iff.mp h1)
  have hlt : v < q.degree.length := by
    rw [h.degLen]
    have hf := hc.stores.factors.length_eq
    have hmm := List.Forall₂.get hc.stores.factors (i := i) (by rw [hf]; exact hi'.1) hi'.1
    simp only [List.get_eq_getElem, hi'.2] at hmm
    rw [← hc.stores.labels]
    exact hmm.range v (by rw [h2]; simpa using hmem)
  have hdeg : q.degree[v]? = some 1 := by
    have := h.degree v _ (List.getElem?_eq_getElem hlt)
    rw [hcnt, if_neg hv] at this
    rw [List.getElem?_eq_getElem hlt, this]
  rcases hmem with rfl | rfl
  · exact Or.inl hdeg
  · exact Or.inr hdeg

theorem RedInv.rotate {id : Nat} {rest : List Nat} (ho : e.o.IsCommMonoid) (hq : q.queue = id :: rest) (h : RedInv e s p R labels next q D) :
    RedInv e s p R labels next { q with queue := rest ++ [id] } D := by
  have hperm : (rest ++ [id]).Perm q.queue := by rw [hq]; exact List.perm_append_singleton id rest
  refine ⟨h.len, ?_, h.fixed, fun i hi => h.queue i (hperm.mem_iff.mp hi), hperm.nodup_iff.mpr h.nodup, h.degLen, ?_, ?_⟩
  · intro v row hv hrow
    rcases h.free v row hv hrow with hx | ⟨x1, x2, x3⟩
    · exact Or.inl hx
    · exact Or.inr ⟨x1, x2, fun i hi => x3 i (hperm.mem_iff.mp hi)⟩
  · intro v d hd
    simp only at hd ⊢
    rw [hperm.countP_eq]
    exact h.degree v d hd
  · intro z hz
    simp only
    rw [total_perm ho (hperm.map (termVal e.o p z))]
    exact h.value z hz

theorem reduce_spec (hc : HCtx e s p) (hr : Rel e.o R) (hR : TwoOpen labels → ∀ a b, e.bop b a = false → R a b) {l : List Nat} (hl : p.Peelable l)
    (hsub : ∀ i, TreeEdge s p labels i → i ∈ l) (hnext : next < p.numLabels.length) : ∀ (m : Nat) (q : Pass V), q.queue.length = m → RedInv e s p R labels next q D →
      ∀ fuel, m * (m + 1) ≤ fuel → ∃ q', reduce e s.gm fuel q = some q' ∧ q'.queue = [] ∧ RedInv e s p R labels next q' D := by
  intro m
  induction m with
  | zero =>
    intro q hq h fuel _
    have h0 : q.queue = [] := List.length_eq_zero_iff.mp hq
    refine ⟨q, ?_, h0, h⟩
    unfold reduce
    rw [h0]
  | succ m ih =>
    -- bring the ready factor to the front
    have key : ∀ (A : List Nat) (q : Pass V) (i : Nat) (B : List Nat), q.queue = A ++ i :: B → (A ++ i :: B).length = m + 1 → Ready p q i →
        RedInv e s p R labels next q D → ∀ fuel, A.length + 1 + m * (m + 1) ≤ fuel →
        ∃ q', reduce e s.gm fuel q = some q' ∧ q'.queue = [] ∧ RedInv e s p R labels next q' D := by
      -- the step at the front
      have front : ∀ (q : Pass V) (i : Nat) (rest : List Nat), q.queue = i :: rest → rest.length = m → RedInv e s p R labels next q D → ∀ fuel, m * (m + 1) ≤ fuel →
          (∃ q', reduce e s.gm (fuel + 1) q = some q' ∧ q'.queue = [] ∧ RedInv e s p R labels next q' D) ∨
          (¬ Ready p q i ∧ reduce e s.gm (fuel + 1) q = reduce e s.gm fuel { q with queue := rest ++ [i] }) := by
        intro q i rest hq hrl h fuel hfuel
        obtain ⟨t, v, w, h1, h2, h3, h4⟩ := (h.queue i (by rw [hq]; simp)).ends
        obtain ⟨hi', ht⟩ := List.getElem?_eq_some_iff.mp h1
        have hflen := hc.stores.factors.length_eq
        have hm := List.Forall₂.get hc.stores.factors (i := i) (by omega) hi'
        simp only [List.get_eq_getElem, ht] at hm
        have hf : s.gm.factors[i]? = some (s.gm.factors[i]'(by omega)) := List.getElem?_eq_getElem _
        generalize s.gm.factors[i]'(by omega) = fr at hm hf
        have hsize : fr.visSize = 2 := by rw [hm.visSize, h2]; rfl
        have hvat : s.gm.visAt fr 0 = some v := by rw [hm.visAt 0 (by omega), h2]; rfl
        have hwat : s.gm.visAt fr 1 = some w := by rw [hm.visAt 1 (by omega), h2]; rfl
        have hvlt : v < p.numLabels.length := by rw [← hc.stores.labels]; exact hm.range v (by rw [h2]; simp)
        have hwlt : w < p.numLabels.length := by rw [← hc.stores.labels]; exact hm.range w (by rw [h2]; simp)
        have hvw : v ≠ w := by
          have := hm.sorted
          rw [h2] at this
          simp at this
          omega
        have hdv : q.degree[v]? = some (q.degree[v]'(by rw [h.degLen]; exact hvlt)) := List.getElem?_eq_getElem _
        generalize q.degree[v]'(by rw [h.degLen]; exact hvlt) = d1 at hdv
        have hdw : q.degree[w]? = some (q.degree[w]'(by rw [h.degLen]; exact hwlt)) := List.getElem?_eq_getElem _
        generalize q.degree[w]'(by rw [h.degLen]; exact hwlt) = d2 at hdw
        have hn : p.numLabels[v]? = some (p.numLabels[v]) := List.getElem?_eq_getElem hvlt
        have hn2 : p.numLabels[w]? = some (p.numLabels[w]) := List.getElem?_eq_getElem hwlt
        have hunf : reduce e s.gm (fuel + 1) q = if d1 = 1 then
              match eliminate e s.gm (fun j k => s.gm.callFactor fr [j, k]) v w { q with queue := rest } with
              | none => none
              | some p' => reduce e s.gm fuel p'
            else if d2 = 1 then
              match eliminate e s.gm (fun j k => s.gm.callFactor fr [k, j]) w v { q with queue := rest } with
              | none => none
              | some p' => reduce e s.gm fuel p'
            else reduce e s.gm fuel { q with queue := rest ++ [i] } := by
          rw [reduce]
          rw [hq]
          simp only
          rw [hf]
          simp only
          rw [hvat, hwat]
          simp only
          rw [hdv, hdw]
          rfl
        rw [hunf]
        by_cases hd1 : d1 = 1
        · left
          rw [if_pos hd1]
          subst hd1
          obtain ⟨q', x1, x2, x3⟩ := eliminate_spec hc hr hR hq h h1 (by rw [h2]; simp) hvw h3 h4 hn hn2 hnext hdv (f := fun j k => s.gm.callFactor fr [j, k])
            (g := fun j k => t.table [j, k]) (fun j k hj hk => callFactor_two hm h2 (by rw [hc.stores.labels]; exact hn) (by rw [hc.stores.labels]; exact hn2) hj hk [])
            (fun z => by simp [Term.value, h2, restrict])
          rw [x1]
          exact ih q' (by rw [x2]; exact hrl) x3 fuel hfuel
        · rw [if_neg hd1]
          by_cases hd2 : d2 = 1
          · left
            rw [if_pos hd2]
            subst hd2
            obtain ⟨q', x1, x2, x3⟩ := eliminate_spec hc hr hR hq h h1 (by rw [h2]; simp [or_comm]) hvw.symm h4 h3 hn2 hn hnext hdw (f := fun j k => s.gm.callFactor fr [k, j])
              (g := fun j k => t.table [k, j]) (fun j k hj hk => callFactor_two hm h2 (by rw [hc.stores.labels]; exact hn) (by rw [hc.stores.labels]; exact hn2) hk hj [])
              (fun z => by simp [Term.value, h2, restrict])
            rw [x1]
            exact ih q' (by rw [x2]; exact hrl) x3 fuel hfuel
          · right
            rw [if_neg hd2]
            refine ⟨?_, rfl⟩
            rintro ⟨t', v', w', g1, g2, g3⟩
            rw [h1] at g1
            cases g1
            rw [h2] at g2
            simp only [List.cons.injEq, and_true] at g2
            obtain ⟨rfl, rfl⟩ := g2
            rw [hdv, hdw] at g3
            rcases g3 with g3 | g3
            · exact hd1 (Option.some.inj g3)
            · exact hd2 (Option.some.inj g3)
      intro A
      induction A with
      | nil =>
        intro q i B hq hlen hready h fuel hfuel
        obtain ⟨fuel, rfl⟩ : ∃ k, fuel = k + 1 := ⟨fuel - 1, by omega⟩
        rw [List.nil_append] at hq hlen
        rcases front q i B hq (by simpa using hlen) h fuel (by simp at hfuel; omega) with hx | ⟨hx, _⟩
        · exact hx
        · exact absurd hready hx
      | cons a A ihA =>
        intro q i B hq hlen hready h fuel hfuel
        obtain ⟨fuel, rfl⟩ : ∃ k, fuel = k + 1 := ⟨fuel - 1, by omega⟩
        rw [List.cons_append] at hq hlen
        rw [List.length_cons] at hfuel
        rcases front q a (A ++ i :: B) hq (by simpa using hlen) h fuel (by omega) with hx | ⟨_, hx⟩
        · exact hx
        · rw [hx]
          refine ihA { q with queue := (A ++ i :: B) ++ [a] } i (B ++ [a]) (by simp) (by simp at hlen ⊢; omega) hready (h.rotate hc.comm hq) fuel (by omega)
    intro q hq h fuel hfuel
    have hne : q.queue ≠ [] := fun h0 => by rw [h0] at hq; simp at hq
    obtain ⟨i, hi, hready⟩ := exists_ready hc hl hsub h hne
    obtain ⟨A, B, hAB⟩ := List.append_of_mem hi
    have hlen : (A ++ i :: B).length = m + 1 := by rw [← hAB]; exact hq
    refine key A q i B hAB hlen hready h fuel ?_
    have hA : A.length + 1 ≤ m + 1 := by
      simp at hlen
      omega
    have : (m + 1) * (m + 1 + 1) = (m + 1) + (m + 1) + m * (m + 1) := by ring
    omega

end AStar
end OpenGM
