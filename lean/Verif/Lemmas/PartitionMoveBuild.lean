import Verif.Lemmas.PartitionMoveRounds
import Verif.Lemmas.FunctionStructure2
import Verif.Lemmas.ExplicitModel
import Verif.Lemmas.Built
import Verif.Spec.PartitionProblem
import Mathlib.Algebra.BigOperators.Group.List.Basic
import Mathlib.Tactic.ByContra
/-
PartitionMove: the constructor.
-/
namespace OpenGM
namespace PartitionMove
open Finset hiding restrict
open Spec Functions Walkers

variable {gm : GM ℚ} {p : Problem ℚ}

/-! ### the search for the problem type -/

theorem factorIsPotts_spec {f : FactorRec} {t : Term ℚ} (hm : FactorMatches gm f t) (hpos : ∀ k ∈ gm.numLabels, 0 < k) (h2 : t.vars.length = 2) :
    ∃ r, factorIsPotts gm f = some r ∧ (r = true ↔ IsPottsTable (restrict gm.numLabels t.vars) t.table) := by
  obtain ⟨fn, h1, hs, ht⟩ := hm.fn
  have hlen : fn.shape.length = 2 := by rw [hs]; simpa [restrict] using h2
  have hne : fn.shape ≠ [] := by intro h; rw [h] at hlen; simp at hlen
  have hden : Denotes (⟨fn.shape, fn.shape.foldl (· * ·) 1, callFn fn⟩ : Fun ℚ) fn.shape t.table := by
    refine ⟨rfl, ?_, ?_⟩
    · exact Marray.Geometry.foldl_mul_prod _
    · intro c hc
      show callFn fn c = _
      rw [ExplicitModel.callFn_eq hne hc, ht c hc]
  have hp : Positive fn.shape := by
    rw [hs]
    intro k hk
    simp only [restrict, List.mem_map] at hk
    obtain ⟨v, hv, rfl⟩ := hk
    have hlt := hm.range v hv
    rw [List.getD_eq_getElem?_getD, List.getElem?_eq_getElem hlt]
    exact hpos _ (List.getElem_mem _)
  obtain ⟨r, e1, e2⟩ := isPotts_spec hp (by omega) hden
  refine ⟨r, ?_, by rw [e2, hs]⟩
  unfold factorIsPotts factorFun
  rw [h1]
  exact e1

/-- The number of terms with two variables. -/
def pairCount (ts : List (Term ℚ)) : Nat := (ts.filter (fun t => decide (t.vars.length = 2))).length

theorem scanFactors_good (hpos : ∀ k ∈ gm.numLabels, 0 < k) {fs : List FactorRec} {ts : List (Term ℚ)} (h : List.Forall₂ (FactorMatches gm) fs ts) :
    ∀ (k : Kind) (e : Nat), (∀ t ∈ ts, t.vars = [] ∨ (t.vars.length = 2 ∧ IsPottsTable (restrict gm.numLabels t.vars) t.table)) →
    scanFactors gm fs k e = some (k, e + pairCount ts) := by
  induction h with
  | nil => intro k e _; simp [scanFactors, pairCount]
  | @cons f t fs ts hm _ ih =>
    intro k e ht
    have hrest := ih k
    have hts : ∀ t ∈ ts, t.vars = [] ∨ (t.vars.length = 2 ∧ IsPottsTable (restrict gm.numLabels t.vars) t.table) := fun t h => ht t (by simp [h])
    rw [scanFactors, hm.visSize]
    rcases ht t (by simp) with h0 | ⟨h2, hpt⟩
    · rw [h0]
      simp only [List.length_nil, if_true]
      rw [hrest e hts]
      simp [pairCount, h0]
    · rw [h2]
      obtain ⟨r, e1, e2⟩ := factorIsPotts_spec hm hpos h2
      have hr : r = true := e2.mpr hpt
      subst hr
      rw [e1]
      simp only [show ¬ (2 = 0) by omega, show ¬ (2 = 1) by omega, if_false, if_true]
      rw [hrest (e + 1) hts]
      simp [pairCount, h2]
      omega

theorem scanFactors_bad (hpos : ∀ k ∈ gm.numLabels, 0 < k) {fs : List FactorRec} {ts : List (Term ℚ)} (h : List.Forall₂ (FactorMatches gm) fs ts) :
    ∀ (k : Kind) (e : Nat), k ≠ .mc ∨ (∃ t ∈ ts, ¬ (t.vars = [] ∨ (t.vars.length = 2 ∧ IsPottsTable (restrict gm.numLabels t.vars) t.table))) →
    ∃ k' e', scanFactors gm fs k e = some (k', e') ∧ k' ≠ .mc := by
  induction h with
  | nil =>
    intro k e hk
    rcases hk with hk | ⟨t, ht, _⟩
    · exact ⟨k, e, rfl, hk⟩
    · simp at ht
  | @cons f t fs ts hm _ ih =>
    intro k e hk
    rw [scanFactors, hm.visSize]
    have hmove : ∀ e', (t.vars = [] ∨ (t.vars.length = 2 ∧ IsPottsTable (restrict gm.numLabels t.vars) t.table)) → ∃ k' e'', scanFactors gm fs k e' = some (k', e'') ∧ k' ≠ .mc := by
      intro e' hok
      refine ih k e' ?_
      rcases hk with hk | ⟨t', ht', hb⟩
      · exact Or.inl hk
      · rcases List.mem_cons.mp ht' with rfl | ht'
        · exact absurd hok hb
        · exact Or.inr ⟨t', ht', hb⟩
    split
    · rename_i h0
      exact hmove e (Or.inl (List.length_eq_zero_iff.mp h0))
    · split
      · exact ih .mwc e (Or.inl (by decide))
      · split
        · rename_i h2
          obtain ⟨r, e1, e2⟩ := factorIsPotts_spec hm hpos h2
          rw [e1]
          cases r with
          | false => exact ⟨.invalid, e + 1, rfl, by decide⟩
          | true => exact hmove (e + 1) (Or.inr ⟨h2, e2.mp rfl⟩)
        · exact ⟨.invalid, e, rfl, by decide⟩

/-! ### reading the factors -/

/-- The matrix with a weight added for a pair. -/
def addWeight (W : Nat → Nat → ℚ) (u v : Nat) (w : ℚ) (a b : Nat) : ℚ := W a b + (if a = u ∧ b = v then w else 0) + (if a = v ∧ b = u then w else 0)

theorem sum_single (n u v : Nat) (hu : u < n) (hv : v < n) (g : Nat → Nat → ℚ) (w : ℚ) :
    ∑ a ∈ range n, ∑ b ∈ range n, (if a = u ∧ b = v then w else 0) * g a b = w * g u v := by
  rw [Finset.sum_eq_single u]
  · rw [Finset.sum_eq_single v]
    · simp
    · intro b _ hb
      simp [hb]
    · intro h
      exact absurd (Finset.mem_range.mpr hv) h
  · intro a _ ha
    apply Finset.sum_eq_zero
    intro b _
    simp [ha]
  · intro h
    exact absurd (Finset.mem_range.mpr hu) h

theorem cut_addWeight {n : Nat} (W : Nat → Nat → ℚ) {u v : Nat} (hu : u < n) (hv : v < n) (w : ℚ) (x : Nat → Nat) :
    cut n (addWeight W u v w) x = cut n W x + 2 * (w * ne (x u) (x v)) := by
  unfold cut addWeight
  simp only [add_mul, Finset.sum_add_distrib]
  rw [sum_single n u v hu hv (fun a b => ne (x a) (x b)), sum_single n v u hv hu (fun a b => ne (x a) (x b)), ne_comm (x v) (x u)]
  ring

theorem mapSet_new {m : List (Nat × Nat)} {k v : Nat} (h : k ∉ m.map Prod.fst) : mapSet m k v = m ++ [(k, v)] := by
  unfold mapSet
  rw [if_neg]
  intro hany
  rw [List.any_eq_true] at hany
  obtain ⟨e, he, hek⟩ := hany
  exact h (List.mem_map.mpr ⟨e, he, by simpa using hek⟩)

/-- The state of the loop over the factors. -/
structure BInv (n : Nat) (W : Nat → Nat → ℚ) (pairs : List (List Nat)) (e : Nat) (st : State) : Prop where
  graph : Graph n W st.neighbours st.edgeWeight
  old : ∀ (u : Nat) (nb : List (Nat × Nat)), st.neighbours[u]? = some nb → ∀ k ∈ nb, k.2 < e ∧ ([u, k.1] ∈ pairs ∨ [k.1, u] ∈ pairs)
  zero : ∀ k : Nat, e ≤ k → k < st.edgeWeight.length → st.edgeWeight[k]? = some 0

theorem BInv.add {n : Nat} {W : Nat → Nat → ℚ} {pairs : List (List Nat)} {e : Nat} {st : State} (h : BInv n W pairs e st) {u v : Nat} (huv : u < v) (hv : v < n)
    (hnew : [u, v] ∉ pairs) (hord : ∀ q ∈ pairs, q.Pairwise (· < ·)) (he : e < st.edgeWeight.length) (w c : ℚ) :
    ∃ nb, (setNeighbour st.neighbours u v e).bind (fun nb => setNeighbour nb v u e) = some nb ∧
      BInv n (addWeight W u v w) (pairs ++ [[u, v]]) (e + 1) ⟨nb, st.edgeWeight.set e (0 + w), c, st.states⟩ := by
  have hg := h.graph
  obtain ⟨nu, hnu⟩ := hg.get (show u < n by omega)
  obtain ⟨nv, hnv⟩ := hg.get hv
  have hne : u ≠ v := by omega
  have hnotvu : [v, u] ∉ pairs := by
    intro hm
    have := hord _ hm
    simp only [List.pairwise_cons, List.mem_singleton, forall_eq] at this
    omega
  have hku : v ∉ nu.map Prod.fst := by
    intro hm
    obtain ⟨k, hk, hkv⟩ := List.mem_map.mp hm
    have := (h.old u nu hnu k hk).2
    rw [hkv] at this
    rcases this with h' | h'
    · exact hnew h'
    · exact hnotvu h'
  have hkv : u ∉ nv.map Prod.fst := by
    intro hm
    obtain ⟨k, hk, hkv⟩ := List.mem_map.mp hm
    have := (h.old v nv hnv k hk).2
    rw [hkv] at this
    rcases this with h' | h'
    · exact hnotvu h'
    · exact hnew h'
  have hwuv : W u v = 0 := (hg.nb u nu hnu).2.2 v hv hku
  have hlu := (List.getElem?_eq_some_iff.mp hnu).1
  have hlv := (List.getElem?_eq_some_iff.mp hnv).1
  refine ⟨(st.neighbours.set u (nu ++ [(v, e)])).set v (nv ++ [(u, e)]), ?_, ?_⟩
  · unfold setNeighbour
    rw [hnu]
    simp only
    rw [setAt_of_lt _ hlu, Option.bind_some, List.getElem?_set_ne hne, hnv]
    simp only
    rw [setAt_of_lt _ (by simpa using hlv), mapSet_new hku, mapSet_new hkv]
  · have hget : ∀ (a : Nat) nb, ((st.neighbours.set u (nu ++ [(v, e)])).set v (nv ++ [(u, e)]))[a]? = some nb →
        (a = v ∧ nb = nv ++ [(u, e)]) ∨ (a = u ∧ nb = nu ++ [(v, e)]) ∨ (a ≠ u ∧ a ≠ v ∧ st.neighbours[a]? = some nb) := by
      intro a nb ha
      by_cases hav : a = v
      · subst hav
        rw [List.getElem?_set_self (by simpa using hlv)] at ha
        exact Or.inl ⟨rfl, (Option.some.inj ha).symm⟩
      · rw [List.getElem?_set_ne (Ne.symm hav)] at ha
        by_cases hau : a = u
        · subst hau
          rw [List.getElem?_set_self hlu] at ha
          exact Or.inr (Or.inl ⟨rfl, (Option.some.inj ha).symm⟩)
        · rw [List.getElem?_set_ne (Ne.symm hau)] at ha
          exact Or.inr (Or.inr ⟨hau, hav, ha⟩)
    have hold : ∀ (a : Nat) nb k, st.neighbours[a]? = some nb → k ∈ nb → (st.edgeWeight.set e (0 + w))[k.2]? = some (W a k.1) := by
      intro a nb k hnb hk
      have := (h.old a nb hnb k hk).1
      rw [List.getElem?_set_ne (by omega)]
      exact ((hg.nb a nb hnb).2.1 k hk).2
    refine ⟨⟨?_, ?_, by simp [hg.len], ?_⟩, ?_, ?_⟩
    · intro a b
      simp only [addWeight, hg.sym a b]
      have h1 : (a = u ∧ b = v) ↔ (b = v ∧ a = u) := and_comm
      have h2 : (a = v ∧ b = u) ↔ (b = u ∧ a = v) := and_comm
      simp only [h1, h2]
      ring
    · intro a
      simp only [addWeight, hg.diag a]
      rw [if_neg (by omega), if_neg (by omega)]
      ring
    · intro a nb ha
      simp only at ha ⊢
      rcases hget a nb ha with ⟨rfl, rfl⟩ | ⟨rfl, rfl⟩ | ⟨hau, hav, ha⟩
      · obtain ⟨b1, b2, b3⟩ := hg.nb a nv hnv
        refine ⟨?_, ?_, ?_⟩
        · rw [List.map_append, List.nodup_append]
          refine ⟨b1, by simp, ?_⟩
          intro x hx y hy hxy
          simp only [List.map_cons, List.map_nil, List.mem_singleton] at hy
          subst hy hxy
          exact hkv hx
        · intro k hk
          rcases List.mem_append.mp hk with hk | hk
          · refine ⟨(b2 k hk).1, ?_⟩
            rw [hold a nv k hnv hk]
            have hk1 : k.1 ≠ u := by
              intro h'
              exact hkv (List.mem_map.mpr ⟨k, hk, h'⟩)
            simp only [addWeight]
            rw [if_neg (by omega), if_neg (by omega)]
            simp
          · rw [List.mem_singleton] at hk
            subst hk
            refine ⟨by simp only; omega, ?_⟩
            simp only
            rw [List.getElem?_set_self he]
            simp only [addWeight]
            rw [if_neg (by omega), if_pos (by simp), hg.sym, hwuv]
            simp
        · intro b hb hn
          simp only [List.map_append, List.map_cons, List.map_nil, List.mem_append, List.mem_singleton, not_or] at hn
          simp only [addWeight]
          rw [b3 b hb hn.1, if_neg (by omega), if_neg (by omega)]
          simp
      · obtain ⟨b1, b2, b3⟩ := hg.nb a nu hnu
        refine ⟨?_, ?_, ?_⟩
        · rw [List.map_append, List.nodup_append]
          refine ⟨b1, by simp, ?_⟩
          intro x hx y hy hxy
          simp only [List.map_cons, List.map_nil, List.mem_singleton] at hy
          subst hy hxy
          exact hku hx
        · intro k hk
          rcases List.mem_append.mp hk with hk | hk
          · refine ⟨(b2 k hk).1, ?_⟩
            rw [hold a nu k hnu hk]
            have hk1 : k.1 ≠ v := by
              intro h'
              exact hku (List.mem_map.mpr ⟨k, hk, h'⟩)
            simp only [addWeight]
            rw [if_neg (by omega), if_neg (by omega)]
            simp
          · rw [List.mem_singleton] at hk
            subst hk
            refine ⟨by simp only; omega, ?_⟩
            simp only
            rw [List.getElem?_set_self he]
            simp only [addWeight]
            rw [if_pos (by simp), if_neg (by omega), hwuv]
            simp
        · intro b hb hn
          simp only [List.map_append, List.map_cons, List.map_nil, List.mem_append, List.mem_singleton, not_or] at hn
          simp only [addWeight]
          rw [b3 b hb hn.1, if_neg (by omega), if_neg (by omega)]
          simp
      · obtain ⟨b1, b2, b3⟩ := hg.nb a nb ha
        have hW : ∀ b, addWeight W u v w a b = W a b := by
          intro b
          simp only [addWeight]
          rw [if_neg (by omega), if_neg (by omega)]
          simp
        refine ⟨b1, fun k hk => ⟨(b2 k hk).1, by rw [hold a nb k ha hk, hW]⟩, fun b hb hn => by rw [hW]; exact b3 b hb hn⟩
    · intro a nb ha k hk
      simp only at ha
      rcases hget a nb ha with ⟨rfl, rfl⟩ | ⟨rfl, rfl⟩ | ⟨hau, hav, ha⟩
      · rcases List.mem_append.mp hk with hk | hk
        · have := h.old a nv hnv k hk
          refine ⟨by omega, ?_⟩
          rcases this.2 with h' | h'
          · exact Or.inl (by simp [h'])
          · exact Or.inr (by simp [h'])
        · rw [List.mem_singleton] at hk
          subst hk
          exact ⟨by simp, by simp⟩
      · rcases List.mem_append.mp hk with hk | hk
        · have := h.old a nu hnu k hk
          refine ⟨by omega, ?_⟩
          rcases this.2 with h' | h'
          · exact Or.inl (by simp [h'])
          · exact Or.inr (by simp [h'])
        · rw [List.mem_singleton] at hk
          subst hk
          exact ⟨by simp, by simp⟩
      · have := h.old a nb ha k hk
        refine ⟨by omega, ?_⟩
        rcases this.2 with h' | h'
        · exact Or.inl (by simp [h'])
        · exact Or.inr (by simp [h'])
    · intro k hk hl
      simp only [List.length_set] at hl
      simp only
      rw [List.getElem?_set_ne (by omega)]
      exact h.zero k (by omega) hl

/-- The pairs of variables of the terms. -/
def pairsOf (ts : List (Term ℚ)) : List (List Nat) := (ts.filter (fun t => decide (t.vars.length = 2))).map (fun t => t.vars)

theorem table_ne {n1 n2 : Nat} {g : List Nat → ℚ} (h : IsPottsTable [n1, n2] g) (h1 : 0 < n1) (h2 : 1 < n2) {a b : Nat} (ha : a < n1) (hb : b < n2) :
    g [a, b] = g [0, 0] + (g [0, 1] - g [0, 0]) * ne a b := by
  obtain ⟨e, m, hg⟩ := h
  have heq : ∀ a, a < n1 → a < n2 → g [a, a] = e := by
    intro a ha hb
    refine (hg [a, a] ⟨ha, hb, trivial⟩).1 ?_
    intro i j hi hj
    simp only [List.length_cons, List.length_nil] at hi hj
    have hi' : i = 0 ∨ i = 1 := by omega
    have hj' : j = 0 ∨ j = 1 := by omega
    rcases hi' with rfl | rfl <;> rcases hj' with rfl | rfl <;> rfl
  have hneq : ∀ a b, a < n1 → b < n2 → a ≠ b → g [a, b] = m := by
    intro a b ha hb hab
    refine (hg [a, b] ⟨ha, hb, trivial⟩).2 ?_
    intro hall
    have := hall 0 1 (by simp) (by simp)
    simp only [List.getElem?_cons_zero, List.getElem?_cons_succ, Option.some.injEq] at this
    exact hab this
  rw [heq 0 h1 (by omega), hneq 0 1 h1 h2 (by omega)]
  by_cases hab : a = b
  · subst hab
    rw [heq a ha hb]
    simp [ne]
  · rw [hneq a b ha hb hab]
    simp [ne, hab]

theorem addEdges_spec (hn : ∀ k ∈ gm.numLabels, gm.numLabels.length ≤ k) {fs : List FactorRec} {ts : List (Term ℚ)} (h : List.Forall₂ (FactorMatches gm) fs ts) :
    ∀ (W : Nat → Nat → ℚ) (pairs : List (List Nat)) (e : Nat) (st : State), BInv gm.numLabels.length W pairs e st → (∀ q ∈ pairs, q.Pairwise (· < ·)) →
    (∀ t ∈ ts, t.vars = [] ∨ (t.vars.length = 2 ∧ IsPottsTable (restrict gm.numLabels t.vars) t.table)) →
    ts.Pairwise (fun t t' => t.vars.length = 2 → t.vars ≠ t'.vars) → (∀ t ∈ ts, t.vars ∉ pairs) → st.edgeWeight.length = e + pairCount ts →
    ∃ W' st', addEdges gm fs e st = .ok st' () ∧ Graph gm.numLabels.length W' st'.neighbours st'.edgeWeight ∧
      ∀ x : List Nat, x.length = gm.numLabels.length → (∀ v l k : Nat, x[v]? = some l → gm.numLabels[v]? = some k → l < k) →
        st'.constant + cut gm.numLabels.length W' (fun v => x.getD v 0) / 2 =
          st.constant + cut gm.numLabels.length W (fun v => x.getD v 0) / 2 + (ts.map (fun t => t.value x)).sum := by
  induction h with
  | nil =>
    intro W pairs e st hb _ _ _ _ _
    exact ⟨W, st, rfl, hb.graph, by simp⟩
  | @cons f t fs ts hm _ ih =>
    intro W pairs e st hb hord ht hpar hpairs hlen
    have hts : ∀ t ∈ ts, t.vars = [] ∨ (t.vars.length = 2 ∧ IsPottsTable (restrict gm.numLabels t.vars) t.table) := fun t h => ht t (by simp [h])
    rw [List.pairwise_cons] at hpar
    rw [addEdges, hm.visSize]
    rcases ht t (by simp) with h0 | ⟨h2, hpt⟩
    · rw [h0]
      simp only [List.length_nil, if_true]
      obtain ⟨fn, g1, g2, g3⟩ := hm.fn
      have hsh : fn.shape = [] := by rw [g2, h0]; rfl
      have hcall : gm.callFactor f [0] = some (t.table []) := by
        unfold GM.callFactor
        rw [g1]
        simp only [callFn, hsh]
        rw [g3 [] (by rw [hsh]; trivial)]
      rw [hcall]
      simp only
      obtain ⟨W', st', r1, r2, r3⟩ := ih W pairs e { st with constant := st.constant + t.table [] } ⟨hb.graph, hb.old, hb.zero⟩ hord hts hpar.2
        (fun t h => hpairs t (by simp [h])) (by simpa [pairCount, h0] using hlen)
      refine ⟨W', st', r1, r2, fun x hx1 hx2 => ?_⟩
      rw [r3 x hx1 hx2]
      simp only [List.map_cons, List.sum_cons]
      have : t.value x = t.table [] := by unfold Term.value; rw [h0]; rfl
      rw [this]
      ring
    · obtain ⟨u, v, huv⟩ : ∃ u v, t.vars = [u, v] := by
        match t.vars, h2 with
        | [u, v], _ => exact ⟨u, v, rfl⟩
      have hsorted := hm.sorted
      rw [huv] at hsorted hpt
      simp only [List.pairwise_cons, List.mem_singleton, forall_eq] at hsorted
      have hlt : u < v := hsorted.1
      have hu : u < gm.numLabels.length := hm.range u (by rw [huv]; simp)
      have hv : v < gm.numLabels.length := hm.range v (by rw [huv]; simp)
      have hku : gm.numLabels.length ≤ gm.numLabels[u] := hn _ (List.getElem_mem _)
      have hkv : gm.numLabels.length ≤ gm.numLabels[v] := hn _ (List.getElem_mem _)
      have hrs : restrict gm.numLabels [u, v] = [gm.numLabels[u], gm.numLabels[v]] := by
        simp [restrict, List.getElem?_eq_getElem hu, List.getElem?_eq_getElem hv]
      obtain ⟨fn, g1, g2, g3⟩ := hm.fn
      rw [huv, hrs] at g2
      rw [hrs] at hpt
      have hcall : ∀ a b, a < gm.numLabels[u] → b < gm.numLabels[v] → gm.callFactor f [a, b] = some (t.table [a, b]) := by
        intro a b ha hb
        have hin : InShape fn.shape [a, b] := by rw [g2]; exact ⟨ha, hb, trivial⟩
        unfold GM.callFactor
        rw [g1]
        simp only
        rw [ExplicitModel.callFn_eq (by rw [g2]; simp) hin, g3 _ hin]
      have hvis0 : gm.visAt f 0 = some u := by rw [hm.visAt 0 (by rw [hm.visSize, h2]; omega), huv]; rfl
      have hvis1 : gm.visAt f 1 = some v := by rw [hm.visAt 1 (by rw [hm.visSize, h2]; omega), huv]; rfl
      have hcount : pairCount (t :: ts) = pairCount ts + 1 := by simp [pairCount, h2]
      rw [hcount] at hlen
      have he : e < st.edgeWeight.length := by omega
      rw [h2]
      simp only [show ¬ (2 = 0) by omega, if_false, if_true]
      rw [hcall 0 1 (by omega) (by omega), hcall 0 0 (by omega) (by omega), hb.zero e (le_refl _) he, hvis0, hvis1]
      simp only
      have hnew : [u, v] ∉ pairs := by rw [← huv]; exact hpairs t (by simp)
      obtain ⟨nb, n1, n2⟩ := hb.add hlt hv hnew hord he (t.table [0, 1] - t.table [0, 0]) (st.constant + t.table [0, 0])
      rw [setAt_of_lt _ he, n1]
      simp only
      obtain ⟨W', st', r1, r2, r3⟩ := ih _ _ (e + 1) _ n2 (by
          intro q hq
          rcases List.mem_append.mp hq with hq | hq
          · exact hord q hq
          · rw [List.mem_singleton] at hq
            subst hq
            simpa using hlt) hts hpar.2 (by
          intro t' ht' hmem
          rcases List.mem_append.mp hmem with hmem | hmem
          · exact hpairs t' (by simp [ht']) hmem
          · rw [List.mem_singleton] at hmem
            exact hpar.1 t' ht' h2 (by rw [huv, hmem])) (by simp only [List.length_set]; omega)
      refine ⟨W', st', r1, r2, fun x hx1 hx2 => ?_⟩
      rw [r3 x hx1 hx2, cut_addWeight W hu hv]
      simp only [List.map_cons, List.sum_cons]
      have hxu : x[u]? = some (x[u]'(by omega)) := List.getElem?_eq_getElem _
      have hxv : x[v]? = some (x[v]'(by omega)) := List.getElem?_eq_getElem _
      have hval : t.value x = t.table [0, 0] + (t.table [0, 1] - t.table [0, 0]) * ne (x.getD u 0) (x.getD v 0) := by
        unfold Term.value
        rw [huv]
        simp only [restrict, List.map_cons, List.map_nil, List.getD_eq_getElem?_getD, hxu, hxv, Option.getD_some]
        exact table_ne hpt (by omega) (by omega) (hx2 u _ _ hxu (List.getElem?_eq_getElem hu)) (hx2 v _ _ hxv (List.getElem?_eq_getElem hv))
      rw [hval]
      ring

/-! ### the initial labeling -/

/-- The state of the search. -/
structure SInv (n : Nat) (s : Search) : Prop where
  lenS : s.states.length = n
  lenA : s.assigned.length = n
  queue : ∀ v ∈ s.queue, v < n
  small : ∀ l ∈ s.states, l < n

theorem count_assign {l : List Bool} {i : Nat} (h : l[i]? = some false) : (l.set i true).count false + 1 = l.count false := by
  obtain ⟨hi, he⟩ := List.getElem?_eq_some_iff.mp h
  rw [List.count_set hi]
  have hpos : 0 < l.count false := List.count_pos_iff.mpr (by rw [← he]; exact List.getElem_mem _)
  simp [he]
  omega

theorem mem_set_small {n : Nat} {l : List Nat} {i q : Nat} (h : ∀ a ∈ l, a < n) (hq : q < n) : ∀ a ∈ l.set i q, a < n := by
  intro a ha
  rcases List.mem_or_eq_of_mem_set ha with h' | h'
  · exact h a h'
  · rw [h']; exact hq

theorem visitNeighbours_spec {n : Nat} (ws : List ℚ) {q : Nat} (hq : q < n) : ∀ (nb : List (Nat × Nat)) (s : Search), SInv n s → (∀ e ∈ nb, e.1 < n ∧ e.2 < ws.length) →
    ∃ s', visitNeighbours ws q nb s = some s' ∧ SInv n s' ∧ s'.assigned.count false + s'.queue.length = s.assigned.count false + s.queue.length
  | [], s, h, _ => ⟨s, rfl, h, rfl⟩
  | (v, e) :: nb, s, h, hnb => by
    obtain ⟨hv, he⟩ := hnb (v, e) (by simp)
    simp only at hv he
    have hrest : ∀ e ∈ nb, e.1 < n ∧ e.2 < ws.length := fun e h => hnb e (by simp [h])
    have hav : v < s.assigned.length := by rw [h.lenA]; exact hv
    have ha : s.assigned[v]? = some s.assigned[v] := List.getElem?_eq_getElem hav
    rw [visitNeighbours, ha]
    cases hb : s.assigned[v] with
    | true => exact visitNeighbours_spec ws hq nb s h hrest
    | false =>
      rw [hb] at ha
      simp only
      rw [List.getElem?_eq_getElem he]
      simp only
      split
      · rw [setAt_of_lt _ (by rw [h.lenS]; exact hv), setAt_of_lt _ hav]
        simp only
        obtain ⟨s', r1, r2, r3⟩ := visitNeighbours_spec ws hq nb ⟨s.states.set v q, s.assigned.set v true, s.queue ++ [v]⟩
          ⟨by simpa using h.lenS, by simpa using h.lenA, by
            intro w hw
            rcases List.mem_append.mp hw with hw | hw
            · exact h.queue w hw
            · rw [List.mem_singleton] at hw; subst hw; exact hv, mem_set_small h.small hq⟩ hrest
        refine ⟨s', r1, r2, ?_⟩
        rw [r3]
        have := count_assign ha
        simp only [List.length_append, List.length_singleton]
        omega
      · exact visitNeighbours_spec ws hq nb s h hrest

theorem drain_spec {n : Nat} {W : Nat → Nat → ℚ} {nbs : List (List (Nat × Nat))} {ws : List ℚ} (hg : Graph n W nbs ws) {q : Nat} (hq : q < n) : ∀ (fuel : Nat) (s : Search), SInv n s →
    s.assigned.count false + s.queue.length ≤ fuel → ∃ s', drain nbs ws q fuel s = some s' ∧ SInv n s'
  | fuel, ⟨ss, as, []⟩, h, _ => ⟨⟨ss, as, []⟩, by cases fuel <;> simp [drain], h⟩
  | 0, ⟨ss, as, v :: qu⟩, h, hf => by simp at hf
  | fuel + 1, ⟨ss, as, v :: qu⟩, h, hf => by
    obtain ⟨nb, hnb⟩ := hg.get (h.queue v (by simp))
    obtain ⟨s', r1, r2, r3⟩ := visitNeighbours_spec (n := n) ws hq nb ⟨ss, as, qu⟩ ⟨h.lenS, h.lenA, fun w hw => h.queue w (by simp [hw]), h.small⟩
      (fun e he => ⟨((hg.nb v nb hnb).2.1 e he).1, (List.getElem?_eq_some_iff.mp ((hg.nb v nb hnb).2.1 e he).2).1⟩)
    obtain ⟨s'', k1, k2⟩ := drain_spec hg hq fuel s' r2 (by
      simp only [List.length_cons] at hf r3
      omega)
    refine ⟨s'', ?_, k2⟩
    rw [drain]
    simp only
    rw [hnb]
    simp only
    rw [r1]
    exact k1

theorem initLoop_spec {n : Nat} {W : Nat → Nat → ℚ} {nbs : List (List (Nat × Nat))} {ws : List ℚ} (hg : Graph n W nbs ws) : ∀ (k i q : Nat) (s : Search), SInv n s →
    i + k = n → q ≤ i → ∃ s', initLoop nbs ws n (List.range' i k) q s = some s' ∧ SInv n s'
  | 0, i, q, s, h, _, _ => ⟨s, rfl, h⟩
  | k + 1, i, q, s, h, hik, hq => by
    have hav : i < s.assigned.length := by rw [h.lenA]; omega
    have ha : s.assigned[i]? = some s.assigned[i] := List.getElem?_eq_getElem hav
    rw [List.range'_succ, initLoop, ha]
    cases hb : s.assigned[i] with
    | true => exact initLoop_spec hg k (i + 1) q s h (by omega) (by omega)
    | false =>
      simp only
      rw [setAt_of_lt _ (by rw [h.lenS]; omega), setAt_of_lt _ hav]
      simp only
      obtain ⟨s', r1, r2⟩ := drain_spec hg (show q < n by omega) (n + 1) ⟨s.states.set i q, s.assigned.set i true, [i]⟩
        ⟨by simpa using h.lenS, by simpa using h.lenA, by intro w hw; rw [List.mem_singleton] at hw; subst hw; omega, mem_set_small h.small (by omega)⟩ (by
          have : (s.assigned.set i true).count false ≤ (s.assigned.set i true).length := List.count_le_length
          simp only [List.length_set, h.lenA] at this
          simp only [List.length_singleton]
          omega)
      rw [r1]
      simp only
      exact initLoop_spec hg k (i + 1) (q + 1) s' r2 (by omega) (by omega)

theorem construct_spec (hr : Represents gm p) (hpos : 0 < p.numLabels.length) (hp : IsPartitionProblem p) (hnp : NoParallelTerms p) :
    ∃ W st x, construct gm = .ok st () ∧ Graph p.numLabels.length W st.neighbours st.edgeWeight ∧ Labels p.numLabels.length st.states x ∧ (∀ v, v < p.numLabels.length → x v < p.numLabels.length) ∧
      ∀ y : List Nat, p.Labeling y → (p.terms.map (fun t => t.value y)).sum = st.constant + cut p.numLabels.length W (fun v => y.getD v 0) / 2 := by
  have hl := hr.labels
  have hlab : ∀ k ∈ gm.numLabels, gm.numLabels.length ≤ k := by rw [hl]; exact hp.labels
  have hlen : gm.numLabels.length = p.numLabels.length := by rw [hl]
  have hpos' : ∀ k ∈ gm.numLabels, 0 < k := fun k hk => by have := hlab k hk; omega
  have hterms : ∀ t ∈ p.terms, t.vars = [] ∨ (t.vars.length = 2 ∧ IsPottsTable (restrict gm.numLabels t.vars) t.table) := by rw [hl]; exact hp.terms
  have hkind : labelKind gm = .mc := by
    unfold labelKind
    rw [if_neg]
    intro hany
    rw [List.any_eq_true] at hany
    obtain ⟨k, hk, hk'⟩ := hany
    have := hlab k hk
    rw [decide_eq_true_eq] at hk'
    unfold GM.numberOfVariables at hk'
    omega
  have hscan := scanFactors_good hpos' hr.factors .mc 0 hterms
  have hb0 : BInv gm.numLabels.length (fun _ _ => 0) [] 0 ⟨List.replicate gm.numLabels.length [], List.replicate (0 + pairCount p.terms) 0, 0, []⟩ := by
    refine ⟨⟨fun _ _ => rfl, fun _ => rfl, by simp, ?_⟩, ?_, ?_⟩
    · intro u nb hnb
      rw [List.getElem?_replicate] at hnb
      split at hnb
      · rw [← Option.some.inj hnb]; simp
      · exact absurd hnb (by simp)
    · intro u nb hnb k hk
      rw [List.getElem?_replicate] at hnb
      split at hnb
      · rw [← Option.some.inj hnb] at hk; simp at hk
      · exact absurd hnb (by simp)
    · intro k _ hk
      simp only [List.length_replicate] at hk
      simp only [List.getElem?_replicate]
      rw [if_pos hk]
  obtain ⟨W, st, r1, r2, r3⟩ := addEdges_spec hlab hr.factors _ _ 0 _ hb0 (by simp) hterms hnp (by simp) (by simp)
  obtain ⟨s, k1, k2⟩ := initLoop_spec r2 gm.numLabels.length 0 0 ⟨List.replicate gm.numLabels.length 0, List.replicate gm.numLabels.length false, []⟩
    ⟨by simp, by simp, by simp, by
      intro l hl
      rw [List.mem_replicate] at hl
      omega⟩ (by omega) (le_refl _)
  rw [← List.range_eq_range'] at k1
  refine ⟨W, { st with states := s.states }, fun v => s.states.getD v 0, ?_, by rw [← hlen]; exact r2, ?_, ?_, ?_⟩
  · unfold construct
    simp only [GM.numberOfVariables, hkind]
    have h0 : gm.numLabels[0]? = some (gm.numLabels[0]'(by omega)) := List.getElem?_eq_getElem _
    rw [h0]
    simp only
    rw [hscan]
    simp only
    rw [r1]
    simp only
    rw [k1]
  · refine ⟨by rw [← hlen]; exact k2.lenS, fun v hv => ?_⟩
    have : v < s.states.length := by rw [k2.lenS]; omega
    simp [List.getElem?_eq_getElem this]
  · intro v hv
    have : v < s.states.length := by rw [k2.lenS]; omega
    simp only [List.getD_eq_getElem?_getD, List.getElem?_eq_getElem this, Option.getD_some]
    rw [← hlen]
    exact k2.small _ (List.getElem_mem _)
  · intro y hy
    obtain ⟨hy1, hy2⟩ := hy
    have := r3 y (by rw [hlen]; exact hy1) (by rw [hl]; exact hy2)
    rw [hlen] at this
    simp only at this ⊢
    rw [this]
    simp [cut]

theorem construct_throws (hr : Represents gm p) (hpos : 0 < p.numLabels.length) (hlab : ∀ k ∈ p.numLabels, 0 < k) (hp : ¬ IsPartitionProblem p) : construct gm = .throw () := by
  have hl := hr.labels
  have hlen : gm.numLabels.length = p.numLabels.length := by rw [hl]
  obtain ⟨k', e', h1, h2⟩ := scanFactors_bad (by rw [hl]; exact hlab) hr.factors (labelKind gm) 0 (by
    by_cases hk : labelKind gm = .mc
    · right
      by_contra hcon
      apply hp
      refine ⟨?_, ?_⟩
      · intro k hk'
        unfold labelKind at hk
        split at hk
        · exact absurd hk (by decide)
        · rename_i hany
          rw [List.any_eq_true] at hany
          by_contra hlt
          exact hany ⟨k, by rw [hl]; exact hk', by
            rw [decide_eq_true_eq]
            unfold GM.numberOfVariables
            omega⟩
      · intro t ht
        by_contra hnt
        exact hcon ⟨t, ht, by rw [hl]; exact hnt⟩
    · exact Or.inl hk)
  unfold construct
  have h0 : gm.numLabels[0]? = some (gm.numLabels[0]'(by omega)) := List.getElem?_eq_getElem _
  simp only [h0, h1]
  cases k' with
  | invalid => rfl
  | mwc => rfl
  | mc => exact absurd rfl h2

end PartitionMove
end OpenGM
