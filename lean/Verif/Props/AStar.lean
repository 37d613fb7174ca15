import Verif.Lemmas.AStarMain
import Verif.Props.GraphicalModel
/-
C64: AStar returns the best labelings, in order.
-/
namespace OpenGM
open Spec AStar
variable {V : Type}

/-- The models and parameters of the theorems: a built model with labels for each variable and factors of at most two variables; a total order on the values that the
operation respects, with `ACC::neutral` the worst and `ACC::ineutral` the best value (Minimizer: plus and minus infinity); DEFAULTHEURISTIC or FASTHEURISTIC; any
order of the variables; tree factors without a cycle; a heap that can hold all labelings; and the standard library's heap algorithms. -/
structure AStarSuitable (e : Env V) (gm : GM V) (p : Problem V) (para : Parameter V) : Prop where
  built : BuiltModel gm p
  positive : ∀ n ∈ p.numLabels, 0 < n
  pairwise : ∀ t ∈ p.terms, t.vars.length ≤ 2
  strict : StrictOrder e.bop
  comparable : Comparable e.bop
  comm : e.o.IsCommMonoid
  reflects : Reflects e.o e.bop
  worst : ∀ v, e.bop e.accNeutral v = false
  best : ∀ v, e.bop v e.accIneutral = false
  heap : e.heap.Correct e.comp
  heuristic : para.heuristic ≤ 1
  order : para.nodeOrder = [] ∨ para.nodeOrder.Perm (List.range p.numLabels.length)
  trees : p.TreesOk para.treeFactorIds
  room : 100 * p.numLabelings ≤ 99 * para.maxHeapSize

theorem AStarSuitable.facts {e : Env V} {gm : GM V} {p : Problem V} {para : Parameter V} (h : AStarSuitable e gm p para) :
    ∃ s, construct e gm para = .ok s ∧ Fresh e para gm p s ∧ ∀ s', SameTask s s' → Ctx e s' p (p.withoutConstants.energy e.o) := by
  have hord : Order e.bop := ⟨h.strict, h.comparable⟩
  have hch := chosen_fast h.built h.pairwise h.heuristic
  obtain ⟨s, s1, s2, s3, s4, s5⟩ := construct_spec (e := e) h.built h.positive hord h.comm h.worst (para := para) (fun _ => h.pairwise) h.order (fun i hi => by
    rcases h.trees with ⟨h0, _⟩ | ⟨_, h1, _⟩
    · rw [h0] at hi; cases hi
    · exact h1 i hi)
  obtain ⟨l, l1, l2⟩ := s5 h.trees
  have hc := s4 h.pairwise
  refine ⟨s, s1, s2, fun s' hs => ?_⟩
  have hc' : HCtx e s' p := ⟨hc.order, hc.comm, by rw [hs.gm]; exact hc.stores, hc.pairwise, hc.positive, by rw [hs.isTree]; exact hc.trees,
    by rw [hs.optimized]; exact hc.optimized⟩
  refine ⟨hord, h.heap, hc'.stores.labels, by rw [hs.para]; exact s2.perm, h.positive, ?_⟩
  exact fast_admissible hc' h.reflects h.worst (by rw [hs.para]; exact s2.perm) (by rw [hs.para, s3, hch]; decide) l1 (by rw [hs.isTree]; exact l2)

/-- What a call of `infer` promises: the labelings that `args` returns are the best ones in order, at most `numberOfOpt` of them; `infer` ends with NORMAL when it has found
that many, or when the objective bound is better than the last one found; else with UNKNOWN, when there are no more labelings, or the visitor asked to stop; `value()`
is the value of the first labeling; `arg(x, n)` is the `n`-th labeling; and no labeling that was not returned is better than `bound()`, if constant factors are not
counted. -/
structure AStarAnswer (e : Env V) (gm : GM V) (p : Problem V) (para : Parameter V) (visit : Nat → Bool) (normal : Bool) (s : Solver V) : Prop where
  ranking : p.Ranking e.o e.bop (args s)
  atMost : (args s).length ≤ para.numberOfOpt
  ends : (normal = true ∧ (args s).length = para.numberOfOpt) ∨
    (normal = true ∧ ∃ x, (args s).getLast? = some x ∧ (p.numLabels ≠ [] → e.bop para.objectiveBound (p.withoutConstants.energy e.o x) = true)) ∨
    (normal = false ∧ ∀ z, p.Labeling z → z ∈ args s) ∨ (normal = false ∧ ∃ k, visit k = true)
  value : value e s = some (((args s).head?.map (p.energy e.o)).getD e.accNeutral)
  arg : ∀ (n : Nat) (x buffer : List Nat), (args s)[n]? = some x → arg s buffer (n + 1) = some (true, x)
  bound : p.numLabels ≠ [] → ∀ z, p.Labeling z → z ∉ args s → e.bop (p.withoutConstants.energy e.o z) (bound s) = false

theorem constants_compare {o : Operation V} {bop : V → V → Bool} (ho : o.IsCommMonoid) (hr : Reflects o bop) (p : Problem V) (x y : List Nat)
    (h : bop (p.energy o x) (p.energy o y) = true) : bop (p.withoutConstants.energy o x) (p.withoutConstants.energy o y) = true := by
  obtain ⟨c, hc⟩ := energy_withoutConstants ho p
  rw [hc, hc] at h
  exact hr c _ _ h

/-- C64 for the first call of `infer`, with any visitor; for models and parameters as in `AStarSuitable`. Missing: other calls (`C64_next_partial`,
`C64_violated_second`), factors of more than two variables, tree factors with cycles, smaller heaps. -/
theorem C64_infer_partial {e : Env V} {gm : GM V} {p : Problem V} {para : Parameter V} (h : AStarSuitable e gm p para) (visit : Nat → Bool) :
    ∃ s normal s', construct e gm para = .ok s ∧ infer e s visit = some (normal, s') ∧ AStarAnswer e gm p para visit normal s' := by
  obtain ⟨s, s1, s2, s3⟩ := h.facts
  have hc := s3 s ⟨rfl, rfl, rfl, rfl⟩
  obtain ⟨r, found, normal, r1, r2, r3, _, r5⟩ := infer_spec hc visit (gone := []) (by rw [s2.array]; exact root_inv h.positive)
    (by rw [s2.array, root_weight hc.labels hc.perm, s2.maxHeapSize]; exact h.room) (fun _ z _ _ => by rw [s2.belowBound]; exact h.best _)
  refine ⟨s, normal, _, s1, r1, ?_⟩
  have hrank : p.Ranking e.o e.bop found := best_ranking (constants_compare h.comm h.reflects p) (by simpa using r2.best)
  refine ⟨hrank, by rw [← s2.numberOfOpt]; exact r3, ?_, ?_, ?_, ?_⟩
  · rcases r2.ends with ⟨h1, h2, _⟩ | ⟨h1, xs, x, h2, _, h3⟩ | ⟨h1, h2, h3⟩ | h1
    · exact Or.inl ⟨h1, by rw [← s2.numberOfOpt]; exact h2⟩
    · refine Or.inr (Or.inl ⟨h1, x, ?_, ?_⟩)
      · simp [args, h2]
      · intro hn
        rw [← s2.objectiveBound]
        exact h3 (List.length_pos_iff.mpr hn)
    · refine Or.inr (Or.inr (Or.inl ⟨h1, fun z hz => ?_⟩))
      rcases h3.core.cover z hz with h4 | ⟨b, hb, _⟩
      · exact h4
      · rw [h2] at hb
        cases hb
    · exact Or.inr (Or.inr (Or.inr h1))
  · unfold AStar.value AStar.args
    simp only
    cases hf : found with
    | nil => rfl
    | cons x xs =>
      simp only [List.head?_cons, Option.map_some, Option.getD_some]
      have hx := hrank.labeling x (by rw [hf]; simp)
      rw [s2.gm]
      exact evaluate_spec e.o h.built.represents.toStores x hx
  · intro n x buffer hx
    unfold AStar.arg
    simp only [AStar.args] at hx ⊢
    have hn : n < found.length := (List.getElem?_eq_some_iff.mp hx).1
    rw [if_neg (by omega), if_neg (by omega), Nat.add_sub_cancel, hx]
    rfl
  · intro hn z hz hzf
    exact r5 (List.length_pos_iff.mpr hn) z hz (by simpa [args] using hzf)

/-- C64 for a sequence of calls, in which the visitor never stops and the objective bound (by default `ACC::neutral`) is never better than a value: each call returns the next best
labelings, `numberOfOpt` of them as long as there are that many, so that `k` calls enumerate the `k * numberOfOpt` best labelings in order. -/
theorem C64_next_partial {e : Env V} {gm : GM V} {p : Problem V} {para : Parameter V} (h : AStarSuitable e gm p para) (hne : p.numLabels ≠ [])
    (hob : ∀ v, e.bop para.objectiveBound v = false) (k : Nat) : ∃ s chunks s', construct e gm para = .ok s ∧ inferTimes e k s = some (chunks, s') ∧
      p.Ranking e.o e.bop chunks.flatten ∧ chunks.length = k ∧ (∀ c ∈ chunks, c.length ≤ para.numberOfOpt) ∧
      chunks.flatten.length = min (k * para.numberOfOpt) p.numLabelings := by
  obtain ⟨s, s1, s2, s3⟩ := h.facts
  have hc := s3 s ⟨rfl, rfl, rfl, rfl⟩
  obtain ⟨chunks, s', a1, _, a3, _, _, a6, a7, a8⟩ := inferTimes_spec s3 (by rw [s2.array]; exact root_inv h.positive)
    (by rw [s2.array, root_weight hc.labels hc.perm, s2.maxHeapSize]; exact h.room) (List.length_pos_iff.mpr hne) (fun z _ _ => by rw [s2.belowBound]; exact h.best _)
    (by rw [s2.objectiveBound]; exact hob) k
  rw [s2.numberOfOpt] at a7 a8
  exact ⟨s, chunks, s', s1, a1, best_ranking (constants_compare h.comm h.reflects p) a3.core.best, a6, a7, a8⟩

/-- The values that STANDARDHEURISTIC gives must not overestimate: for each configuration of the first variables in the order (but not all), there is one value for each label of the
next variable; it is no worse than the value of each labeling that extends the configuration by this label, and equal to it if it is the last variable. -/
def StandardContract (e : Env V) (p : Problem V) (order : List Nat) : Prop :=
  ∀ z conf, p.Labeling z → conf <+: restrict z order → conf.length < p.numLabels.length →
    ∃ bs next n, e.standard conf = some bs ∧ order[conf.length]? = some next ∧ p.numLabels[next]? = some n ∧ bs.length = n ∧
      ∀ (j : Nat) (b : V) (z' : List Nat), bs[j]? = some b → p.Labeling z' → (conf ++ [j]) <+: restrict z' order →
        e.bop (p.energy e.o z') b = false ∧ (conf.length + 1 = p.numLabels.length → b = p.energy e.o z')

/-- C64 with STANDARDHEURISTIC, for models with factors of any order: the first call of `infer` returns the best labelings in order, if the bounds that belief propagation computes (not
modelled) do not overestimate. -/
theorem C64_standard_partial {e : Env V} {gm : GM V} {p : Problem V} {para : Parameter V} (hb : BuiltModel gm p) (hpos : ∀ n ∈ p.numLabels, 0 < n)
    (hs : StrictOrder e.bop) (hcmp : Comparable e.bop) (hcomm : e.o.IsCommMonoid) (hw : ∀ v, e.bop e.accNeutral v = false) (hbest : ∀ v, e.bop v e.accIneutral = false)
    (hheap : e.heap.Correct e.comp) (hh : para.heuristic = 2) (hord : para.nodeOrder.Perm (List.range p.numLabels.length)) (hne : p.numLabels ≠ [])
    (htrees : ∀ i ∈ para.treeFactorIds, i < p.terms.length) (hroom : 100 * p.numLabelings ≤ 99 * para.maxHeapSize)
    (hstd : StandardContract e p para.nodeOrder) (visit : Nat → Bool) :
    ∃ s normal s', construct e gm para = .ok s ∧ infer e s visit = some (normal, s') ∧ p.Ranking e.o e.bop (args s') ∧ (args s').length ≤ para.numberOfOpt ∧
      ((normal = true ∧ (args s').length = para.numberOfOpt) ∨ (normal = true ∧ ∃ x, (args s').getLast? = some x ∧ e.bop para.objectiveBound (p.energy e.o x) = true) ∨
        (normal = false ∧ ∀ z, p.Labeling z → z ∈ args s') ∨ (normal = false ∧ ∃ k, visit k = true)) ∧
      (∀ z, p.Labeling z → z ∉ args s' → e.bop (p.energy e.o z) (bound s') = false) := by
  have ho : Order e.bop := ⟨hs, hcmp⟩
  have hch : chosenHeuristic gm para = 2 := by simp [chosenHeuristic, hh]
  have hpn : para.nodeOrder ≠ [] := by
    intro h0
    rw [h0] at hord
    have := hord.length_eq
    simp at this
    exact hne (List.length_eq_zero_iff.mp this.symm)
  obtain ⟨s, s1, s2, s3, _, _⟩ := construct_spec (e := e) hb hpos ho hcomm hw (para := para) (fun h => by rw [hch] at h; cases h) (Or.inr hord) htrees
  have hlab : s.gm.numLabels = p.numLabels := by rw [s2.gm]; exact hb.represents.labels
  have hso : s.para.nodeOrder = para.nodeOrder := by
    unfold construct at s1
    rw [if_neg (by simpa using hpn)] at s1
    simp only [constructWith] at s1
    split at s1
    · cases s1
    · split at s1
      · cases s1
      · split at s1
        · cases s1
        · split at s1
          · cases s1
          · cases s1
          · split at s1
            · cases s1
            · cases s1
              rfl
  have hc : Ctx e s p (p.energy e.o) := by
    refine ⟨ho, hheap, hlab, s2.perm, hpos, ?_⟩
    intro z conf hz hpre hlt
    rw [hso] at hpre ⊢
    obtain ⟨bs, next, n, b1, b2⟩ := hstd z conf hz hpre hlt
    exact ⟨bs, next, n, by rw [AStar.heuristic, s3, hch, if_pos rfl]; exact b1, b2⟩
  obtain ⟨r, found, normal, r1, r2, r3, _, r5⟩ := infer_spec hc visit (gone := []) (by rw [s2.array]; exact root_inv hpos)
    (by rw [s2.array, root_weight hc.labels hc.perm, s2.maxHeapSize]; exact hroom) (fun _ z _ _ => by rw [s2.belowBound]; exact hbest _)
  refine ⟨s, normal, _, s1, r1, best_ranking (fun _ _ h => h) (by simpa [args] using r2.best), by rw [← s2.numberOfOpt]; exact r3, ?_, ?_⟩
  · rcases r2.ends with ⟨h1, h2, _⟩ | ⟨h1, xs, x, h2, _, h3⟩ | ⟨h1, h2, h3⟩ | h1
    · exact Or.inl ⟨h1, by rw [← s2.numberOfOpt]; exact h2⟩
    · refine Or.inr (Or.inl ⟨h1, x, ?_, ?_⟩)
      · simp [args, h2]
      · rw [← s2.objectiveBound]
        exact h3 (List.length_pos_iff.mpr hne)
    · refine Or.inr (Or.inr (Or.inl ⟨h1, fun z hz => ?_⟩))
      rcases h3.core.cover z hz with h4 | ⟨b, hb, _⟩
      · exact h4
      · rw [h2] at hb
        cases hb
    · exact Or.inr (Or.inr (Or.inr h1))
  · intro z hz hzf
    exact r5 (List.length_pos_iff.mpr hne) z hz (by simpa [args] using hzf)

/-! ### A concrete environment: natural numbers and infinity, Adder and Minimizer -/

/-- Addition; `none` is infinity. -/
def infAdd : Operation (Option Nat) := ⟨some 0, fun a b => match a, b with | some x, some y => some (x + y) | _, _ => none⟩

/-- Is `a` less than `b`? -/
def infLess : Option Nat → Option Nat → Bool
  | some x, some y => decide (x < y)
  | some _, none => true
  | none, _ => false

/-- Adder and Minimizer, with sorting as heap algorithms. -/
def infEnv : Env (Option Nat) := ⟨infAdd, infLess, none, some 0, some 0, sortedHeap (fun a b => infLess b.value a.value), fun _ => none⟩

theorem infAdd_comm : infAdd.IsCommMonoid := by
  refine ⟨?_, ?_, ?_⟩
  · intro a b; cases a <;> cases b <;> simp [infAdd, Nat.add_comm]
  · intro a b c; cases a <;> cases b <;> cases c <;> simp [infAdd, Nat.add_assoc]
  · intro a; cases a <;> simp [infAdd]

theorem infLess_strict : StrictOrder infLess := by
  refine ⟨?_, ?_⟩
  · intro a; cases a <;> simp [infLess]
  · intro a b c; cases a <;> cases b <;> cases c <;> simp [infLess]; omega

theorem infLess_comparable : Comparable infLess := by
  intro a b c; cases a <;> cases b <;> cases c <;> simp [infLess]; omega

theorem infLess_reflects : Reflects infAdd infLess := by
  intro r a b; cases r <;> cases a <;> cases b <;> simp [infLess, infAdd]

/-- Three variables in a cycle, with a constant. -/
def astarOps : List (BuildOp (Option Nat)) :=
  [.addVariable 2, .addVariable 2, .addVariable 2,
   .addFunction 0 ⟨[2], fun c => match c with | [0] => some 1 | _ => some 0⟩, .addFactor 0 [0],
   .addFunction 0 ⟨[2, 2], fun c => match c with | [0, 1] => some 3 | [1, 0] => some 4 | _ => some 0⟩, .addFactor 1 [0, 1],
   .addFunction 0 ⟨[2, 2], fun c => match c with | [0, 0] => some 2 | [1, 1] => none | _ => some 0⟩, .addFactor 2 [1, 2], .addFactor 1 [0, 2],
   .addFunction 0 ⟨[], fun _ => some 7⟩, .addFactor 3 []]

theorem astarOps_valid : ValidHistory 1 Built.empty astarOps := by
  simp [astarOps, ValidHistory, BuildOp.Valid, BuildOp.apply, Built.empty, restrict]

/-- The hypotheses of `C64_infer_partial` and `C64_next_partial` are met by this model, with the default parameters and two labelings asked for. -/
example : ∃ gm, AStarSuitable infEnv gm (builtAfter astarOps).problem ⟨3000000, 2, none, 0, [], []⟩ ∧ (builtAfter astarOps).problem.numLabels ≠ [] ∧
    (∀ v, infEnv.bop none v = false) := by
  obtain ⟨gm, hb⟩ := builtModel_exists astarOps_valid
  have hnl : (builtAfter astarOps).problem.numLabels = [2, 2, 2] := by decide
  have hvars : (builtAfter astarOps).problem.terms.map (·.vars) = [[0], [0, 1], [1, 2], [0, 2], []] := by decide
  refine ⟨gm, ⟨hb, by rw [hnl]; decide, ?_, infLess_strict, infLess_comparable, infAdd_comm, infLess_reflects, fun _ => rfl, ?_, ?_, by decide, Or.inl rfl, Or.inl ⟨rfl, ?_⟩, ?_⟩,
    by rw [hnl]; decide, fun _ => rfl⟩
  · intro t ht
    have : t.vars ∈ (builtAfter astarOps).problem.terms.map (·.vars) := List.mem_map_of_mem ht
    rw [hvars] at this
    revert this
    generalize t.vars = vs
    intro h
    simp only [List.mem_cons, List.not_mem_nil, or_false] at h
    rcases h with rfl | rfl | rfl | rfl | rfl <;> decide
  · intro v
    cases v <;> simp [infEnv, infLess]
  · exact sortedHeap_correct (bop := infLess) ⟨infLess_strict, infLess_comparable⟩ _ (fun _ _ => rfl)
  · intro i j t t' hi hj hl heq
    have h1 : ((builtAfter astarOps).problem.terms.map (·.vars))[i]? = some t.vars := by rw [List.getElem?_map, hi]; rfl
    have h2 : ((builtAfter astarOps).problem.terms.map (·.vars))[j]? = some t.vars := by rw [List.getElem?_map, hj, heq]; rfl
    rw [hvars] at h1 h2
    have hnd : [[0], [0, 1], [1, 2], [0, 2], ([] : List Nat)].Nodup := by decide
    obtain ⟨g1, g1'⟩ := List.getElem?_eq_some_iff.mp h1
    obtain ⟨g2, g2'⟩ := List.getElem?_eq_some_iff.mp h2
    exact (List.Nodup.getElem_inj_iff hnd).mp (g1'.trans g2'.symm)
  · rw [Problem.numLabelings, hnl]
    decide

/-- The same model with other parameters: an order, and a cycle-free set of tree factors (the second and third). -/
example : (builtAfter astarOps).problem.TreesOk [1, 2] ∧ [2, 0, 1].Perm (List.range (builtAfter astarOps).problem.numLabels.length) := by
  have hnl : (builtAfter astarOps).problem.numLabels = [2, 2, 2] := by decide
  refine ⟨Or.inr ⟨by decide, by decide, [1, 2], fun i hi _ _ _ => hi, ⟨⟨_, 0, rfl, by decide, ?_⟩, ⟨_, 1, rfl, by decide, by simp⟩, trivial⟩, ?_⟩, by rw [hnl]; decide⟩
  · intro k hk t ht
    simp only [List.mem_singleton] at hk
    subst hk
    cases ht
    decide
  · intro i hi t ht
    simp only [List.mem_cons, List.not_mem_nil, or_false] at hi
    rcases hi with rfl | rfl <;> · cases ht; rfl

/-- A factor of three variables that is 0 for (1,1,1) only. -/
def astarTripleOps : List (BuildOp (Option Nat)) :=
  [.addVariable 2, .addVariable 2, .addVariable 2,
   .addFunction 0 ⟨[2, 2, 2], fun c => match c with | [1, 1, 1] => some 0 | _ => some 5⟩, .addFactor 0 [0, 1, 2]]

theorem astarTripleOps_valid : ValidHistory 1 Built.empty astarTripleOps := by
  simp [astarTripleOps, ValidHistory, BuildOp.Valid, BuildOp.apply, Built.empty, restrict]

/-- Bounds 0 until the last variable, then the values. -/
def infStandard (p : Problem (Option Nat)) (conf : List Nat) : Option (List (Option Nat)) :=
  some ([0, 1].map (fun j => if conf.length = 2 then p.energy infAdd (conf ++ [j]) else some 0))

theorem restrict_three {z : List Nat} (h : z.length = 3) : restrict z [0, 1, 2] = z := by
  match z, h with
  | [a, b, c], _ => rfl

/-- The hypotheses of `C64_standard_partial` are met by this model, the order (0,1,2) and these bounds. -/
example : ∃ gm, BuiltModel gm (builtAfter astarTripleOps).problem ∧ (∀ n ∈ (builtAfter astarTripleOps).problem.numLabels, 0 < n) ∧
    [0, 1, 2].Perm (List.range (builtAfter astarTripleOps).problem.numLabels.length) ∧ 100 * (builtAfter astarTripleOps).problem.numLabelings ≤ 99 * 3000000 ∧
    StandardContract { infEnv with standard := infStandard (builtAfter astarTripleOps).problem } (builtAfter astarTripleOps).problem [0, 1, 2] := by
  obtain ⟨gm, hb⟩ := builtModel_exists astarTripleOps_valid
  have hnl : (builtAfter astarTripleOps).problem.numLabels = [2, 2, 2] := by decide
  refine ⟨gm, hb, by rw [hnl]; decide, by rw [hnl]; decide, by rw [Problem.numLabelings, hnl]; decide, ?_⟩
  intro z conf hz hpre hlt
  rw [hnl] at hlt ⊢
  have hlt' : conf.length < 3 := hlt
  refine ⟨_, conf.length, 2, rfl, ?_, ?_, rfl, ?_⟩
  · match conf.length, hlt' with
    | 0, _ => rfl
    | 1, _ => rfl
    | 2, _ => rfl
  · match conf.length, hlt' with
    | 0, _ => rfl
    | 1, _ => rfl
    | 2, _ => rfl
  · intro j b z' hb hz' hpre'
    have hzl : z'.length = 3 := by rw [hz'.1, hnl]; rfl
    rw [restrict_three hzl] at hpre'
    rw [List.getElem?_map] at hb
    have hj : ([0, 1] : List Nat)[j]? = some j := by
      match j with
      | 0 => rfl
      | 1 => rfl
      | j + 2 => simp at hb
    rw [hj] at hb
    simp only [Option.map_some, Option.some.injEq] at hb
    by_cases hc : conf.length = 2
    · rw [if_pos hc] at hb
      have : conf ++ [j] = z' := hpre'.eq_of_length (by simp [hc, hzl])
      rw [this] at hb
      subst hb
      exact ⟨infLess_strict.irrefl _, fun _ => rfl⟩
    · rw [if_neg hc] at hb
      subst hb
      refine ⟨?_, fun h => absurd h (by simp; omega)⟩
      simp only [infEnv]
      cases Problem.energy infAdd (builtAfter astarTripleOps).problem z' <;> simp [infLess]

/-! ### Violations -/

/-- Build a model, construct, call infer, check. -/
def oneCall (e : Env V) (ops : List (BuildOp V)) (para : Parameter V) (normal : Bool) (check : GM V → Solver V → Bool) : Bool :=
  match (Client.init 1).run (fun _ _ => false) ops with
  | .ok () c =>
    match construct e c.gm para with
    | .ok s0 =>
      match infer e s0 (fun _ => false) with
      | some (n, s1) => (n == normal) && check c.gm s1
      | none => false
    | _ => false
  | _ => false

theorem oneCall_sound {e : Env V} {ops : List (BuildOp V)} (hv : ValidHistory 1 Built.empty ops) {para : Parameter V} {normal : Bool} {check : GM V → Solver V → Bool}
    (h : oneCall e ops para normal check = true) : ∃ gm s0 s1, BuiltModel gm (builtAfter ops).problem ∧ construct e gm para = .ok s0 ∧
      infer e s0 (fun _ => false) = some (normal, s1) ∧ check gm s1 = true := by
  unfold oneCall at h
  split at h
  · next c hc =>
    split at h
    · next s0 h0 =>
      split at h
      · next n s1 h1 =>
        simp only [Bool.and_eq_true, beq_iff_eq] at h
        obtain ⟨rfl, h2⟩ := h
        exact ⟨c.gm, s0, s1, ⟨1, _, ops, c, eqvSound_false, hv, hc, rfl, rfl⟩, h0, h1, h2⟩
      · cases h
    · cases h
  · cases h

/-- Build a model, construct, check, and infer has no result. -/
def failingCall (e : Env V) (ops : List (BuildOp V)) (para : Parameter V) (check : GM V → Solver V → Bool) : Bool :=
  match (Client.init 1).run (fun _ _ => false) ops with
  | .ok () c =>
    match construct e c.gm para with
    | .ok s0 => (infer e s0 (fun _ => false)).isNone && check c.gm s0
    | _ => false
  | _ => false

theorem failingCall_sound {e : Env V} {ops : List (BuildOp V)} (hv : ValidHistory 1 Built.empty ops) {para : Parameter V} {check : GM V → Solver V → Bool}
    (h : failingCall e ops para check = true) : ∃ gm s0, BuiltModel gm (builtAfter ops).problem ∧ construct e gm para = .ok s0 ∧
      infer e s0 (fun _ => false) = none ∧ check gm s0 = true := by
  unfold failingCall at h
  split at h
  · next c hc =>
    split at h
    · next s0 h0 =>
      simp only [Bool.and_eq_true, Option.isNone_iff_eq_none] at h
      exact ⟨c.gm, s0, ⟨1, _, ops, c, eqvSound_false, hv, hc, rfl, rfl⟩, h0, h.1, h.2⟩
    · cases h
  · cases h

/-- If no variable of the factors in the queue has degree one, the loop of fastHeuristic goes on for ever. -/
theorem reduce_stuck {e : Env V} {gm : GM V} {degree : List Nat} : ∀ (fuel : Nat) (q : Pass V), q.degree = degree → q.queue ≠ [] →
    (∀ id ∈ q.queue, ∃ f v1 v2 d1 d2, gm.factors[id]? = some f ∧ gm.visAt f 0 = some v1 ∧ gm.visAt f 1 = some v2 ∧ degree[v1]? = some d1 ∧ degree[v2]? = some d2 ∧ d1 ≠ 1 ∧ d2 ≠ 1) →
    reduce e gm fuel q = none := by
  intro fuel
  induction fuel with
  | zero =>
    intro q _ hne _
    unfold reduce
    split
    · next h => exact absurd h hne
    · rfl
  | succ fuel ih =>
    intro q hd hne h
    cases hq : q.queue with
    | nil => exact absurd hq hne
    | cons id rest =>
      obtain ⟨f, v1, v2, d1, d2, h1, h2, h3, h4, h5, h6, h7⟩ := h id (by rw [hq]; simp)
      rw [reduce, hq]
      simp only
      rw [h1]
      simp only
      rw [h2, h3]
      simp only
      rw [hd, h4, h5]
      simp only
      rw [if_neg h6, if_neg h7]
      exact ih { q with degree := degree, queue := rest ++ [id] } rfl (by simp) (fun k hk => h k (by rw [hq]; simp only [List.mem_append, List.mem_singleton] at hk; simpa [or_comm] using hk))

/-- C64 is violated for a second call: `reset()` does nothing, and `infer()` goes on where it stopped. On this model the first call finds (0,0,0) with value 10, the optimum;
after `reset()` the second call returns NORMAL, `arg` gives (0,1,0) and `value()` is 11. -/
theorem C64_violated_second : ∃ (gm : GM (Option Nat)) (s0 s1 s2 : Solver (Option Nat)), BuiltModel gm (builtAfter astarOps).problem ∧
    construct infEnv gm ⟨3000000, 1, none, 1, [2, 0, 1], []⟩ = .ok s0 ∧ infer infEnv s0 (fun _ => false) = some (true, s1) ∧
    arg s1 [] 1 = some (true, [0, 0, 0]) ∧ value infEnv s1 = some (some 10) ∧ infer infEnv (reset s1) (fun _ => false) = some (true, s2) ∧
    arg s2 [] 1 = some (true, [0, 1, 0]) ∧ value infEnv s2 = some (some 11) := by
  obtain ⟨gm, s0, s1, hb, g1, g2, g3⟩ := oneCall_sound (e := infEnv) astarOps_valid (para := ⟨3000000, 1, none, 1, [2, 0, 1], []⟩) (normal := true)
    (check := fun _ s => decide (arg s [] 1 = some (true, [0, 0, 0]) ∧ value infEnv s = some (some 10)) &&
      match infer infEnv (reset s) (fun _ => false) with
      | some (true, s2) => decide (arg s2 [] 1 = some (true, [0, 1, 0]) ∧ value infEnv s2 = some (some 11))
      | _ => false) (by decide +kernel)
  simp only [Bool.and_eq_true, decide_eq_true_eq] at g3
  obtain ⟨g3, g4⟩ := g3
  split at g4
  · next s2 h2 => exact ⟨gm, s0, s1, s2, hb, g1, g2, g3.1, g3.2, h2, of_decide_eq_true g4⟩
  · cases g4

/-- Two factors with the same two variables. -/
def astarParallelOps : List (BuildOp (Option Nat)) :=
  [.addVariable 2, .addVariable 2, .addFunction 0 ⟨[2, 2], fun c => match c with | [0, 1] => some 3 | [1, 0] => some 4 | _ => some 0⟩, .addFactor 0 [0, 1], .addFactor 0 [0, 1]]

theorem astarParallelOps_valid : ValidHistory 1 Built.empty astarParallelOps := by
  simp [astarParallelOps, ValidHistory, BuildOp.Valid, BuildOp.apply, Built.empty, restrict]

/-- C64 is violated for models in which two factors have the same two variables: with the default tree factors `infer()` does not end. In the first call of fastHeuristic,
after the first run over the factors, both are in `factorList`, the degrees of the variables are 4 and 2, and each is put back for ever. -/
theorem C64_violated_parallel : ∃ (gm : GM (Option Nat)) (s : Solver (Option Nat)) (q : Pass (Option Nat)), BuiltModel gm (builtAfter astarParallelOps).problem ∧
    construct infEnv gm ⟨3000000, 1, none, 1, [0, 1], []⟩ = .ok s ∧
    firstRun infAdd s [none, none] gm.factors 0 ⟨gm.numLabels.map (fun n => List.replicate n (some 0)), [0, 0], []⟩ = some q ∧ q.queue = [1, 0] ∧ q.degree = [2, 2] ∧
    (∀ fuel, reduce infEnv gm fuel { q with degree := [2 + gm.numLabels.length, 2] } = none) ∧ infer infEnv s (fun _ => false) = none := by
  obtain ⟨gm, s, hb, g1, g2, g3⟩ := failingCall_sound (e := infEnv) astarParallelOps_valid (para := ⟨3000000, 1, none, 1, [0, 1], []⟩)
    (check := fun gm s =>
      match firstRun infAdd s [none, none] gm.factors 0 ⟨gm.numLabels.map (fun n => List.replicate n (some 0)), [0, 0], []⟩ with
      | some q => decide (q.queue = [1, 0] ∧ q.degree = [2, 2])
      | none => false) (by decide +kernel)
  split at g3
  · next q hq =>
    simp only [decide_eq_true_eq] at g3
    refine ⟨gm, s, q, hb, g1, hq, g3.1, g3.2, ?_, g2⟩
    have hr := hb.represents
    have hlen := hr.factors.length_eq
    have hnl : gm.numLabels.length = 2 := by rw [hr.labels]; decide
    have htl : (builtAfter astarParallelOps).problem.terms.length = 2 := by decide
    have hvars : (builtAfter astarParallelOps).problem.terms.map (·.vars) = [[0, 1], [0, 1]] := by decide
    intro fuel
    refine reduce_stuck (degree := [2 + gm.numLabels.length, 2]) fuel _ rfl (by simp only; rw [g3.1]; decide) ?_
    intro id hid
    have hid' : id < 2 := by
      simp only [g3.1, List.mem_cons, List.not_mem_nil, or_false] at hid
      omega
    have hm := List.Forall₂.get hr.factors (i := id) (by omega) (by omega)
    simp only [List.get_eq_getElem] at hm
    have hv : ((builtAfter astarParallelOps).problem.terms[id]'(by omega)).vars = [0, 1] := by
      have h1 : ((builtAfter astarParallelOps).problem.terms.map (·.vars))[id]? = some ((builtAfter astarParallelOps).problem.terms[id]'(by omega)).vars := by
        rw [List.getElem?_map, List.getElem?_eq_getElem (by omega)]
        rfl
      rw [hvars] at h1
      match id, hid' with
      | 0, _ => exact (Option.some.inj h1).symm
      | 1, _ => exact (Option.some.inj h1).symm
    have hsz := hm.visSize
    rw [hv] at hsz
    refine ⟨_, 0, 1, 2 + gm.numLabels.length, 2, List.getElem?_eq_getElem (by omega), ?_, ?_, rfl, rfl, by omega, by omega⟩
    · rw [hm.visAt 0 (by rw [hsz]; decide), hv]; rfl
    · rw [hm.visAt 1 (by rw [hsz]; decide), hv]; rfl
  · cases g3

/-- C64 is violated with FASTHEURISTIC for factors of more than two variables (which the constructor accepts as long as they are not tree factors): the value of a complete configuration is
taken to be that of (0,0,0). On this model `infer` returns NORMAL and (1,0,0) with value 5, although (1,1,1) has the value 0. -/
theorem C64_violated_triple : ∃ (gm : GM (Option Nat)) (s0 s1 : Solver (Option Nat)), BuiltModel gm (builtAfter astarTripleOps).problem ∧
    construct infEnv gm ⟨3000000, 1, none, 1, [0, 1, 2], []⟩ = .ok s0 ∧ infer infEnv s0 (fun _ => false) = some (true, s1) ∧
    arg s1 [] 1 = some (true, [1, 0, 0]) ∧ value infEnv s1 = some (some 5) ∧ gm.evaluate infAdd [1, 1, 1] = some (some 0) := by
  obtain ⟨gm, s0, s1, hb, g1, g2, g3⟩ := oneCall_sound (e := infEnv) astarTripleOps_valid (para := ⟨3000000, 1, none, 1, [0, 1, 2], []⟩) (normal := true)
    (check := fun gm s => decide (arg s [] 1 = some (true, [1, 0, 0]) ∧ value infEnv s = some (some 5) ∧ gm.evaluate infAdd [1, 1, 1] = some (some 0))) (by decide +kernel)
  simp only [decide_eq_true_eq] at g3
  exact ⟨gm, s0, s1, hb, g1, g2, g3⟩

/-- One labeling. -/
def astarSingleOps : List (BuildOp (Option Nat)) := [.addVariable 1, .addVariable 1, .addFunction 0 ⟨[1, 1], fun _ => some 5⟩, .addFactor 0 [0, 1]]

theorem astarSingleOps_valid : ValidHistory 1 Built.empty astarSingleOps := by
  simp [astarSingleOps, ValidHistory, BuildOp.Valid, BuildOp.apply, Built.empty, restrict]

/-- C64 is violated for the result of `infer` when the heap becomes empty: one labeling is asked for and found, and it is the only one, but `infer` returns UNKNOWN. -/
theorem C64_violated_unknown : ∃ (gm : GM (Option Nat)) (s0 s1 : Solver (Option Nat)), BuiltModel gm (builtAfter astarSingleOps).problem ∧
    construct infEnv gm ⟨3000000, 1, none, 1, [0, 1], []⟩ = .ok s0 ∧ infer infEnv s0 (fun _ => false) = some (false, s1) ∧
    arg s1 [] 1 = some (true, [0, 0]) ∧ (args s1).length = 1 := by
  obtain ⟨gm, s0, s1, hb, g1, g2, g3⟩ := oneCall_sound (e := infEnv) astarSingleOps_valid (para := ⟨3000000, 1, none, 1, [0, 1], []⟩) (normal := false)
    (check := fun gm s => decide (arg s [] 1 = some (true, [0, 0]) ∧ (args s).length = 1)) (by decide +kernel)
  simp only [decide_eq_true_eq] at g3
  exact ⟨gm, s0, s1, hb, g1, g2, g3⟩

/-- C64 is violated for heaps that are too small: with `maxHeapSize_` 2 `infer` returns NORMAL and (1,0,1) with value 11, although (0,0,0) has the value 10; with `maxHeapSize_` 1 it
reads the first element of an empty array. -/
theorem C64_violated_heapSize : ∃ (gm : GM (Option Nat)) (s0 s1 t0 : Solver (Option Nat)), BuiltModel gm (builtAfter astarOps).problem ∧
    construct infEnv gm ⟨2, 1, none, 1, [0, 1, 2], []⟩ = .ok s0 ∧ infer infEnv s0 (fun _ => false) = some (true, s1) ∧
    arg s1 [] 1 = some (true, [1, 0, 1]) ∧ value infEnv s1 = some (some 11) ∧ gm.evaluate infAdd [0, 0, 0] = some (some 10) ∧
    construct infEnv gm ⟨1, 1, none, 1, [0, 1, 2], []⟩ = .ok t0 ∧ infer infEnv t0 (fun _ => false) = none := by
  obtain ⟨gm, s0, s1, hb, g1, g2, g3⟩ := oneCall_sound (e := infEnv) astarOps_valid (para := ⟨2, 1, none, 1, [0, 1, 2], []⟩) (normal := true)
    (check := fun gm s => decide (arg s [] 1 = some (true, [1, 0, 1]) ∧ value infEnv s = some (some 11) ∧ gm.evaluate infAdd [0, 0, 0] = some (some 10)) &&
      match construct infEnv gm ⟨1, 1, none, 1, [0, 1, 2], []⟩ with
      | .ok t0 => (infer infEnv t0 (fun _ => false)).isNone
      | _ => false) (by decide +kernel)
  simp only [Bool.and_eq_true, decide_eq_true_eq] at g3
  obtain ⟨⟨g3, g4, g5⟩, g6⟩ := g3
  split at g6
  · next t0 h0 => exact ⟨gm, s0, s1, t0, hb, g1, g2, g3, g4, g5, h0, by simpa using g6⟩
  · cases g6

/-- Natural numbers with Multiplier and Maximizer; 1000000 stands for the best value. -/
def maxEnv : Env Nat := ⟨⟨1, (· * ·)⟩, fun a b => decide (b < a), 0, 1000000, 0, sortedHeap (fun a b => decide (a.value < b.value)), fun _ => none⟩

/-- One variable and a constant. -/
def astarConstantOps : List (BuildOp Nat) :=
  [.addVariable 2, .addFunction 0 ⟨[2], fun c => match c with | [0] => 5 | _ => 2⟩, .addFactor 0 [0], .addFunction 0 ⟨[], fun _ => 3⟩, .addFactor 1 []]

theorem astarConstantOps_valid : ValidHistory 1 Built.empty astarConstantOps := by
  simp [astarConstantOps, ValidHistory, BuildOp.Valid, BuildOp.apply, Built.empty, restrict]

/-- C64 is violated for `bound()` of models with constant factors, which the search ignores: here `value()` is 15 and, with Maximizer, `bound()` is 5. Also, `arg(conf, 0)` reads out of
bounds. -/
theorem C64_violated_bound : ∃ (gm : GM Nat) (s0 s1 : Solver Nat), BuiltModel gm (builtAfter astarConstantOps).problem ∧
    construct maxEnv gm ⟨3000000, 1, 0, 1, [0], []⟩ = .ok s0 ∧ infer maxEnv s0 (fun _ => false) = some (true, s1) ∧
    arg s1 [] 1 = some (true, [0]) ∧ value maxEnv s1 = some 15 ∧ bound s1 = 5 ∧ arg s1 [] 0 = none := by
  obtain ⟨gm, s0, s1, hb, g1, g2, g3⟩ := oneCall_sound (e := maxEnv) astarConstantOps_valid (para := ⟨3000000, 1, 0, 1, [0], []⟩) (normal := true)
    (check := fun gm s => decide (arg s [] 1 = some (true, [0]) ∧ value maxEnv s = some 15 ∧ bound s = 5 ∧ arg s [] 0 = none)) (by decide +kernel)
  simp only [decide_eq_true_eq] at g3
  exact ⟨gm, s0, s1, hb, g1, g2, g3⟩

/-- Two labelings without a constant. -/
def astarTwoOps : List (BuildOp (Option Nat)) := [.addVariable 2, .addFunction 0 ⟨[2], fun c => match c with | [0] => some 5 | _ => some 2⟩, .addFactor 0 [0]]

theorem astarTwoOps_valid : ValidHistory 1 Built.empty astarTwoOps := by
  simp [astarTwoOps, ValidHistory, BuildOp.Valid, BuildOp.apply, Built.empty, restrict]

/-- C64 is violated for `bound()` when more than one labeling is asked for: with Minimizer and `numberOfOpt_` 2, `value()` is 2 and `bound()`, the value of the last labeling found, is 5. -/
theorem C64_violated_boundOfMany : ∃ (gm : GM (Option Nat)) (s0 s1 : Solver (Option Nat)), BuiltModel gm (builtAfter astarTwoOps).problem ∧
    construct infEnv gm ⟨3000000, 2, none, 1, [0], []⟩ = .ok s0 ∧ infer infEnv s0 (fun _ => false) = some (false, s1) ∧
    args s1 = [[1], [0]] ∧ value infEnv s1 = some (some 2) ∧ bound s1 = some 5 := by
  obtain ⟨gm, s0, s1, hb, g1, g2, g3⟩ := oneCall_sound (e := infEnv) astarTwoOps_valid (para := ⟨3000000, 2, none, 1, [0], []⟩) (normal := false)
    (check := fun gm s => decide (args s = [[1], [0]] ∧ value infEnv s = some (some 2) ∧ bound s = some 5)) (by decide +kernel)
  simp only [decide_eq_true_eq] at g3
  exact ⟨gm, s0, s1, hb, g1, g2, g3⟩

end OpenGM
