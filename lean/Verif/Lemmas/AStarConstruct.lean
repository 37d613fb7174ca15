import Verif.Lemmas.AStarHeuristic
import Verif.Lemmas.FactorAccumulate
import Verif.Lemmas.Built
/-
Lemmas for the constructor of A*.
-/
namespace OpenGM
namespace AStar
open Spec
variable {V : Type} {e : Env V} {gm : GM V} {p : Problem V}

theorem mapM_forall₂ {α β : Type} {g : α → Option β} : ∀ {l : List α}, (∀ a ∈ l, ∃ b, g a = some b) → ∃ bs, l.mapM g = some bs ∧ List.Forall₂ (fun a b => g a = some b) l bs
  | [], _ => ⟨[], rfl, .nil⟩
  | a :: l, h => by
    obtain ⟨b, hb⟩ := h a (by simp)
    obtain ⟨bs, h1, h2⟩ := mapM_forall₂ (l := l) (fun a' ha' => h a' (by simp [ha']))
    exact ⟨b :: bs, by rw [List.mapM_cons, hb, h1]; rfl, .cons hb h2⟩

theorem factorFn_value {f : FactorRec} {t : Term V} (hm : FactorMatches gm f t) (hne : t.vars ≠ []) :
    HasValue (fun v => gm.numLabels.getD v 0) t.vars (factorFn gm f).shape (factorFn gm f).eval (fun x => t.table (t.vars.map x)) := by
  obtain ⟨fn, h1, h2, h3⟩ := hm.fn
  have hshape : fn.shape = t.vars.map (fun v => gm.numLabels.getD v 0) := h2
  have hin : ∀ (L x : Nat → Nat) (vars rest : List Nat), (∀ v ∈ vars, x v < L v) → inShape (vars.map L) (vars.map x ++ rest) = true := by
    intro L x vars rest
    induction vars with
    | nil => intro _; simp [inShape]
    | cons v vars ih =>
      intro h
      simp only [List.map_cons, List.cons_append, inShape, Bool.and_eq_true, decide_eq_true_eq]
      exact ⟨h v (by simp), ih (fun w hw => h w (by simp [hw]))⟩
  have hin' : ∀ (L x : Nat → Nat) (vars : List Nat), (∀ v ∈ vars, x v < L v) → InShape (vars.map L) (vars.map x) := by
    intro L x vars
    induction vars with
    | nil => intro _; trivial
    | cons v vars ih => intro h; exact ⟨h v (by simp), ih (fun w hw => h w (by simp [hw]))⟩
  refine ⟨by simp only [factorFn]; rw [h1]; exact hshape, ?_⟩
  intro x hx rest
  simp only [factorFn, GM.callFactor]
  rw [h1]
  simp only [callFn]
  have hs : fn.shape ≠ [] := by rw [hshape]; simpa using hne
  split
  · next h => exact absurd h hs
  · rw [hshape, hin _ x _ _ hx, if_pos rfl]
    rw [← h3 _ (by rw [hshape]; exact hin' _ x _ hx)]
    simp

theorem optimizedFactor_spec (ho : Order e.bop) (hw : ∀ v, e.bop e.accNeutral v = false) (hpos : ∀ n ∈ gm.numLabels, 0 < n) {f : FactorRec} {t : Term V}
    (hm : FactorMatches gm f t) : ∃ r, optimizedFactor e gm f = some r ∧ ∀ v w n m : Nat, t.vars = [v, w] → gm.numLabels[v]? = some n → gm.numLabels[w]? = some m →
      ∃ (a : Marray.Arr V) (g : Nat → V), r = some a ∧ ∀ j < n, a.get [j] = some (g j) ∧ ∀ k < m, e.bop (t.table [j, k]) (g j) = false := by
  unfold optimizedFactor
  by_cases hsz : f.visSize ≤ 1
  · rw [if_pos hsz]
    refine ⟨none, rfl, ?_⟩
    intro v w n m hv
    rw [hm.visSize, hv] at hsz
    simp at hsz
  · rw [if_neg hsz]
    have hne : t.vars ≠ [] := by
      intro h
      rw [hm.visSize, h] at hsz
      simp at hsz
    have hnd : t.vars.Nodup := hm.sorted.imp (fun h => Nat.ne_of_lt h)
    obtain ⟨c, c1, _, c3⟩ := FactorOps.accumulateSome_spec e.zero (fun x y => e.acc y x) e.accNeutral (fun v => by simp [Env.acc, hw]) ((gm.scope f).drop 1)
      (factorFn_value hm hne) hnd (fun v hv => by
        have := hm.range v hv
        simp only [List.getD_eq_getElem?_getD, List.getElem?_eq_getElem this, Option.getD_some]
        exact hpos _ (List.getElem_mem _)) hne
    rw [hm.scope] at c1 c3
    refine ⟨some c, by rw [hm.scope, c1]; rfl, ?_⟩
    intro v w n m hv hn hm'
    have hvw : v ≠ w := by
      intro h
      rw [hv, h] at hnd
      simp at hnd
    rw [hv] at c3
    have e1 : [v, w].filter (fun u => !([v, w].drop 1).contains u) = [v] := by simp [hvw]
    have e2 : [v, w].filter (fun u => ([v, w].drop 1).contains u) = [w] := by simp [hvw]
    rw [e1, e2] at c3
    refine ⟨c, fun j => marginal (fun x y => e.acc y x) e.accNeutral (fun u => gm.numLabels.getD u 0) [w] (fun x => t.table ([v, w].map x)) (fun u => if u = v then j else 0),
      rfl, fun j hj => ⟨?_, ?_⟩⟩
    · have := c3.value (fun u => if u = v then j else 0) (by intro u hu; simp at hu; subst hu; simpa [List.getD_eq_getElem?_getD, hn] using hj) []
      simpa using this
    · intro k hk
      simp only
      unfold marginal
      rw [← List.foldl_map (f := fun t' => t.table ([v, w].map (override (fun u => if u = v then j else 0) [w] t'))) (g := e.acc)]
      apply (foldl_acc ho _ _).2
      rw [List.mem_map]
      refine ⟨[k], (mem_allTuples _ _).mpr ?_, ?_⟩
      · simp only [List.map_cons, List.map_nil, List.getD_eq_getElem?_getD, hm', Option.getD_some]
        exact ⟨hk, trivial⟩
      · simp [override, hvw]

theorem defaultOrder_perm (hr : Represents gm p) : ∃ order, defaultOrder gm = some order ∧ order.Perm (List.range p.numLabels.length) := by
  unfold defaultOrder
  obtain ⟨tmp, h1, h2⟩ := mapM_forall₂ (g := fun i => (gm.factorsOfVariable i).map (fun fs => (fs.length, i))) (l := List.range gm.numLabels.length)
    (fun i hi => ⟨_, by rw [GM.factorsOfVariable, hr.adj i (List.mem_range.mp hi)]; rfl⟩)
  rw [h1]
  refine ⟨_, rfl, ?_⟩
  have h3 : tmp.map (·.2) = List.range gm.numLabels.length := by
    clear h1
    generalize List.range gm.numLabels.length = is at h2
    induction h2 with
    | nil => rfl
    | cons h _ ih =>
      rw [List.map_cons, ih]
      simp only [Option.map_eq_some_iff] at h
      obtain ⟨_, _, rfl⟩ := h
      rfl
  rw [← hr.labels, ← h3]
  exact ((List.reverse_perm _).trans (List.mergeSort_perm _ _)).map _

theorem defaultTrees_spec {order : List Nat} {c : Nat} : ∀ {fs : List FactorRec} {ts : List (Term V)}, List.Forall₂ (FactorMatches gm) fs ts →
    (∀ t ∈ ts, t.vars.length = 2 → order.getLast? = some c) → ∀ i, ∃ ids, defaultTrees gm order fs i = some ids ∧
      ∀ j, j ∈ ids ↔ ∃ (k : Nat) (t : Term V), j = i + k ∧ ts[k]? = some t ∧ t.vars.length = 2 ∧ c ∈ t.vars := by
  intro fs ts h
  induction h with
  | nil => intro _ i; exact ⟨[], rfl, by simp⟩
  | @cons f t fs ts hft _ ih =>
    intro hlast i
    obtain ⟨ids, a1, a2⟩ := ih (fun t' ht' => hlast t' (by simp [ht'])) (i + 1)
    obtain ⟨b, b1, b2⟩ : ∃ b, defaultTree gm order f = some b ∧ (b = true ↔ t.vars.length = 2 ∧ c ∈ t.vars) := by
      unfold defaultTree
      by_cases hs : f.visSize = 2
      · rw [if_pos hs]
        have hl : t.vars.length = 2 := by rw [← hft.visSize]; exact hs
        obtain ⟨v, w, hv⟩ := List.length_eq_two.mp hl
        rw [hft.visAt 0 (by omega), hft.visAt 1 (by omega), hlast t (by simp) hl, hv]
        simp only [List.getElem?_cons_zero, List.getElem?_cons_succ]
        refine ⟨_, rfl, ?_⟩
        simp only [Bool.or_eq_true, beq_iff_eq, List.length_cons, List.length_nil, List.mem_cons, List.not_mem_nil, or_false, true_and]
        exact ⟨fun h => h.imp Eq.symm Eq.symm, fun h => h.imp Eq.symm Eq.symm⟩
      · rw [if_neg hs]
        refine ⟨false, rfl, ?_⟩
        rw [← hft.visSize]
        simp [hs]
    refine ⟨if b then i :: ids else ids, by rw [defaultTrees, b1, a1], ?_⟩
    intro j
    have hsplit : (∃ (k : Nat) (t' : Term V), j = i + k ∧ (t :: ts)[k]? = some t' ∧ t'.vars.length = 2 ∧ c ∈ t'.vars) ↔
        (j = i ∧ b = true) ∨ j ∈ ids := by
      rw [a2 j]
      constructor
      · rintro ⟨k, t', h1, h2, h3⟩
        cases k with
        | zero =>
          simp only [List.getElem?_cons_zero, Option.some.injEq] at h2
          subst h2
          exact Or.inl ⟨h1, b2.mpr h3⟩
        | succ k => exact Or.inr ⟨k, t', by omega, by simpa using h2, h3⟩
      · rintro (⟨h1, h2⟩ | ⟨k, t', h1, h2, h3⟩)
        · exact ⟨0, t, h1, rfl, b2.mp h2⟩
        · exact ⟨k + 1, t', by omega, by simpa using h2, h3⟩
    rw [hsplit]
    cases b <;> simp

theorem setTrees_spec : ∀ (trees : List Nat) (flags : List Bool), (∀ i ∈ trees, i < flags.length) →
    ∃ flags', setTrees trees flags = some flags' ∧ flags'.length = flags.length ∧ ∀ i : Nat, flags'[i]? = some true → i ∈ trees ∨ flags[i]? = some true
  | [], flags, _ => ⟨flags, rfl, rfl, fun _ h => Or.inr h⟩
  | f :: fs, flags, h => by
    have hf := h f (by simp)
    obtain ⟨flags', h1, h2, h3⟩ := setTrees_spec fs (flags.set f true) (fun i hi => by simpa using h i (by simp [hi]))
    refine ⟨flags', by rw [setTrees, setAt_of_lt _ hf]; exact h1, by simpa using h2, ?_⟩
    intro i hi
    rcases h3 i hi with h4 | h4
    · exact Or.inl (by simp [h4])
    · by_cases hif : i = f
      · exact Or.inl (by simp [hif])
      · rw [List.getElem?_set_ne (fun h => hif h.symm)] at h4
        exact Or.inr h4

theorem treesPairwise_spec (hs : Stores gm p) (hpair : ∀ t ∈ p.terms, t.vars.length ≤ 2) : ∀ (trees : List Nat), (∀ i ∈ trees, i < p.terms.length) →
    treesPairwise gm trees = some true
  | [], _ => rfl
  | i :: is, h => by
    have hi := h i (by simp)
    have hlen := hs.factors.length_eq
    have hm := List.Forall₂.get hs.factors (i := i) (by omega) hi
    simp only [List.get_eq_getElem] at hm
    rw [treesPairwise, List.getElem?_eq_getElem (by omega)]
    simp only
    rw [if_neg (by rw [hm.visSize]; have := hpair _ (List.getElem_mem hi); omega)]
    exact treesPairwise_spec hs hpair is (fun j hj => h j (by simp [hj]))

/-- The default trees: the pair terms at one variable. -/
theorem star_peelable (hs : Stores gm p) (hnp : p.NoParallel) (c : Nat) : ∀ (l : List Nat), l.Nodup →
    (∀ i ∈ l, ∃ t : Term V, p.terms[i]? = some t ∧ t.vars.length = 2 ∧ c ∈ t.vars) → p.Peelable l
  | [], _, _ => trivial
  | i :: l, hnd, h => by
    obtain ⟨hi, hnd'⟩ := List.nodup_cons.mp hnd
    refine ⟨?_, star_peelable hs hnp c l hnd' (fun k hk => h k (by simp [hk]))⟩
    have hsort : ∀ (k : Nat) (t : Term V), p.terms[k]? = some t → t.vars.Pairwise (· < ·) := by
      intro k t ht
      obtain ⟨hk, rfl⟩ := List.getElem?_eq_some_iff.mp ht
      have hlen := hs.factors.length_eq
      exact (List.Forall₂.get hs.factors (i := k) (by omega) hk).sorted
    obtain ⟨t, h1, h2, h3⟩ := h i (by simp)
    obtain ⟨v, w, hv⟩ := List.length_eq_two.mp h2
    have hst := hsort i t h1
    have hvw : v < w := by rw [hv] at hst; simpa using hst
    rw [hv] at h3
    have hother : ∃ u, u ∈ t.vars ∧ u ≠ c ∧ ∀ x, x ∈ t.vars ↔ x = u ∨ x = c := by
      rw [hv]
      simp only [List.mem_cons, List.not_mem_nil, or_false] at h3 ⊢
      rcases h3 with rfl | rfl
      · exact ⟨w, Or.inr rfl, by omega, fun x => or_comm⟩
      · exact ⟨v, Or.inl rfl, by omega, fun x => Iff.rfl⟩
    obtain ⟨u, u1, u2, u3⟩ := hother
    refine ⟨t, u, h1, u1, ?_⟩
    intro k hk t' ht' hut'
    obtain ⟨t'', g1, g2, g3⟩ := h k (by simp [hk])
    rw [ht'] at g1
    cases g1
    -- the same two variables
    obtain ⟨v', w', hv'⟩ := List.length_eq_two.mp g2
    have hst' := hsort k t' ht'
    have hvw' : v' < w' := by rw [hv'] at hst'; simpa using hst'
    rw [hv'] at hut' g3
    have hset : ∀ x, x ∈ t.vars ↔ x ∈ t'.vars := by
      intro x
      rw [u3, hv']
      simp only [List.mem_cons, List.not_mem_nil, or_false] at hut' g3 ⊢
      omega
    have heq : t.vars = t'.vars := by
      have a1 := (hset v).mp (by rw [hv]; simp)
      have a2 := (hset w).mp (by rw [hv]; simp)
      rw [hv'] at a1 a2
      simp only [List.mem_cons, List.not_mem_nil, or_false] at a1 a2
      rw [hv, hv']
      have : v = v' := by omega
      have : w = w' := by omega
      simp [*]
    have := hnp i k t t' h1 ht' h2 heq
    subst this
    exact hi hk

/-- What the constructor makes. -/
structure Fresh (e : Env V) (para : Parameter V) (gm : GM V) (p : Problem V) (s : Solver V) : Prop where
  gm : s.gm = gm
  perm : s.para.nodeOrder.Perm (List.range p.numLabels.length)
  maxHeapSize : s.para.maxHeapSize = para.maxHeapSize
  numberOfOpt : s.para.numberOfOpt = para.numberOfOpt
  objectiveBound : s.para.objectiveBound = para.objectiveBound
  array : s.array = [⟨[], e.zero⟩]
  optConf : s.optConf = []
  belowBound : s.belowBound = e.accIneutral

theorem chosen_fast (hb : BuiltModel gm p) (hpair : ∀ t ∈ p.terms, t.vars.length ≤ 2) {para : Parameter V} (hh : para.heuristic ≤ 1) : chosenHeuristic gm para = 1 := by
  have hr := hb.represents
  unfold chosenHeuristic
  by_cases h0 : para.heuristic = 0
  · rw [if_pos h0, if_pos]
    rw [GM.factorOrder, hr.order]
    have : ∀ (ls : List Nat) (a : Nat), a ≤ 2 → (∀ x ∈ ls, x ≤ 2) → ls.foldl max a ≤ 2 := by
      intro ls
      induction ls with
      | nil => intro a ha _; exact ha
      | cons x ls ih =>
        intro a ha h
        rw [List.foldl_cons]
        exact ih _ (Nat.max_le.mpr ⟨ha, h x (by simp)⟩) (fun y hy => h y (by simp [hy]))
    exact this _ 0 (by omega) (fun x hx => by
      obtain ⟨t, ht, rfl⟩ := List.mem_map.mp hx
      exact hpair t ht)
  · rw [if_neg h0]; omega

theorem construct_spec (hb : BuiltModel gm p) (hpos : ∀ n ∈ p.numLabels, 0 < n) (ho : Order e.bop) (hcomm : e.o.IsCommMonoid)
    (hw : ∀ v, e.bop e.accNeutral v = false) {para : Parameter V} (hfast : chosenHeuristic gm para = 1 → ∀ t ∈ p.terms, t.vars.length ≤ 2)
    (hord : para.nodeOrder = [] ∨ para.nodeOrder.Perm (List.range p.numLabels.length)) (hrange : ∀ i ∈ para.treeFactorIds, i < p.terms.length) :
    ∃ s, construct e gm para = .ok s ∧ Fresh e para gm p s ∧ s.para.heuristic = chosenHeuristic gm para ∧ ((∀ t ∈ p.terms, t.vars.length ≤ 2) → HCtx e s p) ∧
      (p.TreesOk para.treeFactorIds →
        ∃ l, p.Peelable l ∧ ∀ (i : Nat) (t : Term V), s.isTree[i]? = some true → p.terms[i]? = some t → t.vars.length = 2 → i ∈ l) := by
  have hr := hb.represents
  -- the order
  obtain ⟨order, o1, o2⟩ : ∃ order, (if para.nodeOrder.length = 0 then defaultOrder gm else some para.nodeOrder) = some order ∧ order.Perm (List.range p.numLabels.length) := by
    by_cases h0 : para.nodeOrder.length = 0
    · rw [if_pos h0]
      exact defaultOrder_perm hr
    · rw [if_neg h0]
      rcases hord with h | h
      · rw [h] at h0; simp at h0
      · exact ⟨_, rfl, h⟩
  have olen : order.length = gm.numLabels.length := by rw [hr.labels]; simpa using o2.length_eq
  -- the trees
  obtain ⟨trees, t1, t2, t3⟩ : ∃ trees, (if para.treeFactorIds.length = 0 then defaultTrees gm order gm.factors 0 else some para.treeFactorIds) = some trees ∧
      (∀ i ∈ trees, i < p.terms.length) ∧ (p.TreesOk para.treeFactorIds →
        ∃ l, p.Peelable l ∧ ∀ (i : Nat) (t : Term V), i ∈ trees → p.terms[i]? = some t → t.vars.length = 2 → i ∈ l) := by
    by_cases h0 : para.treeFactorIds = []
    · rw [h0]
      simp only [List.length_nil, if_true]
      obtain ⟨ids, d1, d2⟩ := defaultTrees_spec (order := order) (c := order.getLast?.getD 0) hr.factors (fun t ht hl => by
        cases hlast : order.getLast? with
        | some c => rfl
        | none =>
          exfalso
          rw [List.getLast?_eq_none_iff] at hlast
          rw [hlast] at olen
          obtain ⟨k, hk, rfl⟩ := List.getElem_of_mem ht
          have hlen := hr.factors.length_eq
          have hm := List.Forall₂.get hr.factors (i := k) (by omega) hk
          simp only [List.get_eq_getElem] at hm
          obtain ⟨v, w, hv⟩ := List.length_eq_two.mp hl
          have := hm.range v (by rw [hv]; simp)
          simp at olen
          omega) 0
      refine ⟨ids, d1, ?_, fun htrees => ⟨(List.range p.terms.length).filter (fun i => decide (i ∈ ids)), ?_, ?_⟩⟩
      · intro i hi
        obtain ⟨k, t, rfl, h2, _⟩ := (d2 i).mp hi
        rw [Nat.zero_add]
        exact (List.getElem?_eq_some_iff.mp h2).1
      · have hnp : p.NoParallel := by
          rcases htrees with ⟨_, h⟩ | ⟨h, _⟩
          · exact h
          · exact absurd rfl h
        refine star_peelable hr.toStores hnp (order.getLast?.getD 0) _ (List.nodup_range.filter _) ?_
        intro i hi
        have hi' : i ∈ ids := by simpa using (List.mem_filter.mp hi).2
        obtain ⟨k, t, h1, h2, h3, h4⟩ := (d2 i).mp hi'
        exact ⟨t, by rw [h1, Nat.zero_add]; exact h2, h3, h4⟩
      · intro i t hi ht _
        exact List.mem_filter.mpr ⟨List.mem_range.mpr (List.getElem?_eq_some_iff.mp ht).1, by simpa using hi⟩
    · have hl : para.treeFactorIds.length ≠ 0 := by simpa using h0
      rw [if_neg hl]
      refine ⟨_, rfl, hrange, fun htrees => ?_⟩
      rcases htrees with ⟨h, _⟩ | ⟨_, _, l, h2, h3, h4⟩
      · exact absurd h h0
      · exact ⟨l, h3, fun i t hi ht hv => h2 i hi t ht hv⟩
  -- the optimized factors
  obtain ⟨optimized, m1, m2⟩ := mapM_forall₂ (g := optimizedFactor e gm) (l := gm.factors) (fun f hf => by
    obtain ⟨k, hk, rfl⟩ := List.getElem_of_mem hf
    have hlen := hr.factors.length_eq
    have hm := List.Forall₂.get hr.factors (i := k) hk (by omega)
    simp only [List.get_eq_getElem] at hm
    obtain ⟨r, h1, _⟩ := optimizedFactor_spec ho hw (by rw [hr.labels]; exact hpos) hm
    exact ⟨r, h1⟩)
  obtain ⟨flags, f1, f2, f3⟩ := setTrees_spec trees (List.replicate gm.factors.length false) (fun i hi => by
    rw [List.length_replicate, hr.factors.length_eq]
    exact t2 i hi)
  refine ⟨⟨gm, { para with heuristic := chosenHeuristic gm para, nodeOrder := order, treeFactorIds := trees }, flags, optimized, [⟨[], e.zero⟩], [], e.accIneutral⟩, ?_, ?_, rfl, fun hpair => ?_, fun htrees => ?_⟩
  · unfold construct
    rw [o1]
    simp only
    unfold constructWith
    rw [if_neg (by rw [olen]; simp), t1]
    simp only
    rw [m1]
    simp only
    have htp : (if chosenHeuristic gm para = 1 then treesPairwise gm trees else some true) = some true := by
      by_cases h : chosenHeuristic gm para = 1
      · rw [if_pos h, treesPairwise_spec hr.toStores (hfast h) trees t2]
      · rw [if_neg h]
    rw [htp]
    simp only
    rw [f1]
  · exact ⟨rfl, o2, rfl, rfl, rfl, rfl, rfl, rfl⟩
  · refine ⟨ho, hcomm, hr.toStores, hpair, hpos, by simp only; rw [f2, List.length_replicate, hr.factors.length_eq], ?_⟩
    intro i t v w n m ht hv hn hm'
    obtain ⟨hi, ht'⟩ := List.getElem?_eq_some_iff.mp ht
    have hlen := hr.factors.length_eq
    have hlen2 := m2.length_eq
    have hm := List.Forall₂.get hr.factors (i := i) (by omega) hi
    simp only [List.get_eq_getElem, ht'] at hm
    obtain ⟨r, r1, r2⟩ := optimizedFactor_spec ho hw (by rw [hr.labels]; exact hpos) hm
    have h1 := List.Forall₂.get m2 (i := i) (by omega) (by omega)
    simp only [List.get_eq_getElem] at h1
    rw [r1] at h1
    obtain ⟨a, g, ha, hg⟩ := r2 v w n m hv (by rw [hr.labels]; exact hn) (by rw [hr.labels]; exact hm')
    refine ⟨a, g, ?_, hg⟩
    simp only
    rw [List.getElem?_eq_getElem (by omega), ← Option.some.inj h1, ha]
  · obtain ⟨l, t3, t4⟩ := t3 htrees
    refine ⟨l, t3, ?_⟩
    intro i t hi ht hv
    simp only at hi
    rcases f3 i hi with h1 | h1
    · exact t4 i t h1 ht hv
    · rw [List.getElem?_replicate] at h1
      split at h1 <;> cases h1

end AStar
end OpenGM
