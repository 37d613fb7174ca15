import Verif.Lemmas.PartitionMoveBuild
import Verif.Lemmas.PartitionMoveLocal
import Verif.Spec.Cuts
/-
C87: the Kernighan-Lin heuristic for partition problems.
-/
namespace OpenGM
namespace PartitionMove
open Spec

/-- Calls of infer(), each with an order in which hash sets are visited and the answers of a visitor. -/
def inferAll (n : Nat) : List ((List Nat → List Nat) × (Nat → Bool)) → State → Option State
  | [], st => some st
  | (iter, visit) :: calls, st => (infer n iter visit st).bind (inferAll n calls)

theorem inferAll_spec {n : Nat} {W : Nat → Nat → ℚ} : ∀ (calls : List ((List Nat → List Nat) × (Nat → Bool))) (st : State) (x : Nat → Nat),
    (∀ call ∈ calls, ∀ l, (call.1 l).Perm l) → Graph n W st.neighbours st.edgeWeight → Labels n st.states x → (∀ v, v < n → x v < n) →
    ∃ states' x', inferAll n calls st = some { st with states := states' } ∧ Labels n states' x' ∧ (∀ v, v < n → x' v < n) ∧ cut n W x' ≤ cut n W x
  | [], st, x, _, _, hl, hx => ⟨st.states, x, rfl, hl, hx, le_refl _⟩
  | (iter, visit) :: calls, st, x, hp, hg, hl, _ => by
    obtain ⟨s1, x1, a1, a2, a3, a4⟩ := infer_spec hg (hp (iter, visit) (by simp)) visit hl
    obtain ⟨s2, x2, b1, b2, b3, b4⟩ := inferAll_spec calls { st with states := s1 } x1 (fun c hc => hp c (by simp [hc])) hg a2 a3
    refine ⟨s2, x2, ?_, b2, b3, le_trans b4 a4⟩
    rw [inferAll, a1, Option.bind_some]
    exact b1

theorem labels_list {n : Nat} {states : List Nat} {x : Nat → Nat} (h : Labels n states x) (W : Nat → Nat → ℚ) : cut n W (fun v => states.getD v 0) = cut n W x := by
  apply cut_congr
  intro u v hu hv
  simp [List.getD_eq_getElem?_getD, h.get u hu, h.get v hv]

theorem labels_labeling {p : Problem ℚ} {states : List Nat} {x : Nat → Nat} (hp : IsPartitionProblem p) (h : Labels p.numLabels.length states x)
    (hx : ∀ v, v < p.numLabels.length → x v < p.numLabels.length) : p.Labeling states := by
  refine ⟨h.len, fun v l k hl hk => ?_⟩
  have hv := (List.getElem?_eq_some_iff.mp hk).1
  rw [h.get v hv] at hl
  have h1 := hx v hv
  have h2 := hp.labels k (List.mem_of_getElem? hk)
  have := Option.some.inj hl
  omega

theorem energy_sum (p : Problem ℚ) (y : List Nat) : p.energy (sumOp ℚ) y = (p.terms.map (fun t => t.value y)).sum := by
  unfold Problem.energy sumOp
  rw [List.sum_eq_foldl]

/-- C87: the constructor rejects every model that is no partition problem: a variable with fewer labels than there are variables, a factor of one variable or of three or
more variables, or a factor of two variables that is not of the Potts form. (`p` has a variable, and every variable has a label.) -/
theorem C87_rejects {gm : GM ℚ} {p : Problem ℚ} (hb : BuiltModel gm p) (hn : 0 < p.numLabels.length) (hl : ∀ k ∈ p.numLabels, 0 < k) (hp : ¬ IsPartitionProblem p) :
    construct gm = .throw () := construct_throws hb.represents hn hl hp

/-- C87: for a partition problem in which no two factors have the same two variables, the constructor succeeds. Before and after any number of calls of infer(), whatever
the order in which hash sets are visited and whatever the visitors answer, arg() is a labeling; infer() never fails, terminates, and never increases the energy of that labeling. -/
theorem C87_infer_partial {gm : GM ℚ} {p : Problem ℚ} (hb : BuiltModel gm p) (hn : 0 < p.numLabels.length) (hp : IsPartitionProblem p) (hnp : NoParallelTerms p) :
    ∃ st, construct gm = .ok st () ∧ ∀ before after : List ((List Nat → List Nat) × (Nat → Bool)), (∀ call ∈ before ++ after, ∀ l, (call.1 l).Perm l) →
      ∃ st1 st2 x1 x2, inferAll p.numLabels.length before st = some st1 ∧ inferAll p.numLabels.length after st1 = some st2 ∧
        arg p.numLabels.length st1 1 = some x1 ∧ arg p.numLabels.length st2 1 = some x2 ∧ p.Labeling x1 ∧ p.Labeling x2 ∧
        p.energy (sumOp ℚ) x2 ≤ p.energy (sumOp ℚ) x1 := by
  obtain ⟨W, st, x, h1, h2, h3, h4, h5⟩ := construct_spec hb.represents hn hp hnp
  refine ⟨st, h1, fun before after hcalls => ?_⟩
  obtain ⟨s1, y1, a1, a2, a3, a4⟩ := inferAll_spec before st x (fun c hc => hcalls c (by simp [hc])) h2 h3 h4
  obtain ⟨s2, y2, b1, b2, b3, b4⟩ := inferAll_spec after { st with states := s1 } y1 (fun c hc => hcalls c (by simp [hc])) h2 a2 a3
  have l1 := labels_labeling hp a2 a3
  have l2 := labels_labeling hp b2 b3
  refine ⟨_, _, s1, s2, a1, b1, ?_, ?_, l1, l2, ?_⟩
  · simp [arg, List.take_of_length_le (le_of_eq a2.len)]
  · simp [arg, List.take_of_length_le (le_of_eq b2.len)]
  · rw [energy_sum, energy_sum, h5 s1 l1, h5 s2 l2, labels_list a2, labels_list b2]
    linarith

theorem integral_of_energies {p : Problem ℚ} {W : Nat → Nat → ℚ} {k : ℚ} (hp : IsPartitionProblem p) (hint : ∀ y, p.Labeling y → ∃ z : ℤ, p.energy (sumOp ℚ) y = z)
    (h : ∀ y : List Nat, p.Labeling y → (p.terms.map (fun t => t.value y)).sum = k + cut p.numLabels.length W (fun v => y.getD v 0) / 2) : Integral p.numLabels.length W := by
  have hlab : ∀ f : Nat → Nat, (∀ v, v < p.numLabels.length → f v < p.numLabels.length) → Labels p.numLabels.length ((List.range p.numLabels.length).map f) f := by
    intro f _
    refine ⟨by simp, fun v hv => ?_⟩
    rw [List.getElem?_map, List.getElem?_range hv]
    rfl
  have hval : ∀ f : Nat → Nat, (∀ v, v < p.numLabels.length → f v < p.numLabels.length) → ∃ z : ℤ, k + cut p.numLabels.length W f / 2 = z := by
    intro f hf
    have hl := hlab f hf
    have hlabel := labels_labeling hp hl hf
    obtain ⟨z, hz⟩ := hint _ hlabel
    rw [energy_sum, h _ hlabel, labels_list hl] at hz
    exact ⟨z, hz⟩
  intro x
  by_cases hn : p.numLabels.length = 0
  · exact ⟨0, by simp [hn, cut]⟩
  · obtain ⟨z0, h0⟩ := hval (fun _ => 0) (fun _ _ => by omega)
    have hcut0 : cut p.numLabels.length W (fun _ => 0) = 0 := by simp [cut, ne]
    rw [hcut0] at h0
    have hex : ∀ v, ∃ u, x u = x v := fun v => ⟨v, rfl⟩
    obtain ⟨z1, h1⟩ := hval (fun v => Nat.find (hex v)) (fun v hv => lt_of_le_of_lt (Nat.find_min' (hex v) rfl) hv)
    have hcut1 : cut p.numLabels.length W (fun v => Nat.find (hex v)) = cut p.numLabels.length W x := by
      apply cut_congr
      intro u v _ _
      constructor
      · intro he
        have h1 := Nat.find_spec (hex u)
        have h2 := Nat.find_spec (hex v)
        rw [he] at h1
        exact h1.symm.trans h2
      · intro he
        simp only [he]
    rw [hcut1] at h1
    refine ⟨z1 - z0, ?_⟩
    push_cast
    rw [← h0, ← h1]
    ring

/-- C87: for a partition problem in which no two factors have the same two variables and all energies are integers, infer() with a visitor that never stops it ends, from
wherever it starts, in a labeling that no change of the label of one variable improves. -/
theorem C87_local_optimum {gm : GM ℚ} {p : Problem ℚ} (hb : BuiltModel gm p) (hn : 0 < p.numLabels.length) (hp : IsPartitionProblem p) (hnp : NoParallelTerms p)
    (hint : ∀ y, p.Labeling y → ∃ z : ℤ, p.energy (sumOp ℚ) y = z) :
    ∃ st, construct gm = .ok st () ∧ ∀ before : List ((List Nat → List Nat) × (Nat → Bool)), (∀ call ∈ before, ∀ l, (call.1 l).Perm l) →
      ∀ (iter : List Nat → List Nat) (visit : Nat → Bool), (∀ l, (iter l).Perm l) → (∀ i, visit i = true) →
      ∃ st1 st2 x, inferAll p.numLabels.length before st = some st1 ∧ infer p.numLabels.length iter visit st1 = some st2 ∧ arg p.numLabels.length st2 1 = some x ∧ p.Labeling x ∧
        ∀ v l, p.Labeling (x.set v l) → p.energy (sumOp ℚ) x ≤ p.energy (sumOp ℚ) (x.set v l) := by
  obtain ⟨W, st, x, h1, h2, h3, h4, h5⟩ := construct_spec hb.represents hn hp hnp
  have hI := integral_of_energies hp hint h5
  refine ⟨st, h1, fun before hcalls iter visit hiter hvisit => ?_⟩
  obtain ⟨s1, y1, a1, a2, a3, a4⟩ := inferAll_spec before st x hcalls h2 h3 h4
  have hg1 : Graph p.numLabels.length W ({ st with states := s1 } : State).neighbours ({ st with states := s1 } : State).edgeWeight := h2
  obtain ⟨s2, y2, b1, b2, b3, b4⟩ := infer_spec (st := { st with states := s1 }) hg1 hiter visit a2
  obtain ⟨x', c1, c2⟩ := infer_local (st := { st with states := s1 }) hg1 hI hiter hvisit a2 b1
  have hl := labels_labeling hp b2 b3
  refine ⟨_, _, s2, a1, b1, ?_, hl, fun v l hset => ?_⟩
  · simp [arg, List.take_of_length_le (le_of_eq b2.len)]
  · by_cases hv : v < p.numLabels.length
    · rw [energy_sum, energy_sum, h5 _ hl, h5 _ hset]
      have e1 : cut p.numLabels.length W (fun w => s2.getD w 0) = cut p.numLabels.length W x' := labels_list c1 W
      have e2 : cut p.numLabels.length W (fun w => (s2.set v l).getD w 0) = cut p.numLabels.length W (Function.update x' v l) := by
        apply labels_list
        refine ⟨by simpa using c1.len, fun w hw => ?_⟩
        by_cases hwv : w = v
        · subst hwv
          rw [List.getElem?_set_self (by rw [b2.len]; exact hw), Function.update_self]
        · rw [List.getElem?_set_ne (Ne.symm hwv), Function.update_of_ne hwv]
          exact c1.get w hw
      rw [e1, e2]
      have := c2 v hv l
      linarith
    · rw [List.set_eq_of_length_le (by rw [b2.len]; omega)]

/-- C87: arg() for any other solution than the first one reports that there is none. -/
theorem C87_arg_other (n N : Nat) (st : State) (h : N ≠ 1) : arg n st N = none := by simp [arg, h]

/-! ### examples -/

/-- A Potts function of two variables with three labels. -/
def potts3 (w : ℚ) : Table ℚ := ⟨[3, 3], fun c => if c[0]? = c[1]? then 0 else w⟩

/-- Three variables with three labels, a constant and a triangle of weights 1, 1 and -5. -/
def triangleOps : List (BuildOp ℚ) :=
  [.addVariable 3, .addVariable 3, .addVariable 3, .addFunction 0 ⟨[], fun _ => 3⟩, .addFunction 0 (potts3 1), .addFunction 0 (potts3 (-5)),
   .addFactor 0 [], .addFactor 1 [0, 1], .addFactor 1 [1, 2], .addFactor 2 [0, 2]]

/-- The same with a second function, of weight 100, for the variables 0 and 2, added before the one of weight -5. -/
def parallelOps : List (BuildOp ℚ) :=
  [.addVariable 3, .addVariable 3, .addVariable 3, .addFunction 0 ⟨[], fun _ => 3⟩, .addFunction 0 (potts3 1), .addFunction 0 (potts3 (-5)), .addFunction 0 (potts3 100),
   .addFactor 0 [], .addFactor 1 [0, 1], .addFactor 1 [1, 2], .addFactor 3 [0, 2], .addFactor 2 [0, 2]]

/-- The model after a history. -/
def gmAfter (ops : List (BuildOp ℚ)) : GM ℚ :=
  match (Client.init 1).run (fun _ _ => false) ops with
  | .ok _ c => c.gm
  | _ => GM.empty 1

theorem triangle_built : BuiltModel (gmAfter triangleOps) (builtAfter triangleOps).problem := by
  refine ⟨1, fun _ _ => false, triangleOps, _, by intro f g h; simp at h, ?_, rfl, rfl, rfl⟩
  simp [triangleOps, potts3, ValidHistory, BuildOp.Valid, BuildOp.apply, Built.empty, restrict]

theorem parallel_built : BuiltModel (gmAfter parallelOps) (builtAfter parallelOps).problem := by
  refine ⟨1, fun _ _ => false, parallelOps, _, by intro f g h; simp at h, ?_, rfl, rfl, rfl⟩
  simp [parallelOps, potts3, ValidHistory, BuildOp.Valid, BuildOp.apply, Built.empty, restrict]

theorem potts3_isPotts (w : ℚ) : IsPottsTable [3, 3] (potts3 w).table := by
  refine ⟨0, w, ?_⟩
  intro c hc
  match c, hc with
  | [a, b], _ =>
    constructor
    · intro h
      have := h 0 1 (by simp) (by simp)
      have hab : a = b := by simpa using this
      simp [potts3, hab]
    · intro h
      have hab : a ≠ b := by
        rintro rfl
        apply h
        intro i j hi hj
        simp only [List.length_cons, List.length_nil] at hi hj
        have hi' : i = 0 ∨ i = 1 := by omega
        have hj' : j = 0 ∨ j = 1 := by omega
        rcases hi' with rfl | rfl <;> rcases hj' with rfl | rfl <;> rfl
      simp [potts3, hab]

theorem triangle_partition : IsPartitionProblem (builtAfter triangleOps).problem := by
  refine ⟨by decide, ?_⟩
  intro t ht
  simp only [triangleOps, builtAfter, List.foldl_cons, List.foldl_nil, BuildOp.apply, Built.empty, Built.problem, List.nil_append, List.cons_append,
    List.getElem?_cons_zero, List.getElem?_cons_succ, List.mem_cons, List.not_mem_nil, or_false] at ht
  rcases ht with rfl | rfl | rfl | rfl
  · exact Or.inl rfl
  · exact Or.inr ⟨rfl, potts3_isPotts 1⟩
  · exact Or.inr ⟨rfl, potts3_isPotts 1⟩
  · exact Or.inr ⟨rfl, potts3_isPotts (-5)⟩

theorem parallel_partition : IsPartitionProblem (builtAfter parallelOps).problem := by
  refine ⟨by decide, ?_⟩
  intro t ht
  simp only [parallelOps, builtAfter, List.foldl_cons, List.foldl_nil, BuildOp.apply, Built.empty, Built.problem, List.nil_append, List.cons_append,
    List.getElem?_cons_zero, List.getElem?_cons_succ, List.mem_cons, List.not_mem_nil, or_false] at ht
  rcases ht with rfl | rfl | rfl | rfl | rfl
  · exact Or.inl rfl
  · exact Or.inr ⟨rfl, potts3_isPotts 1⟩
  · exact Or.inr ⟨rfl, potts3_isPotts 1⟩
  · exact Or.inr ⟨rfl, potts3_isPotts 100⟩
  · exact Or.inr ⟨rfl, potts3_isPotts (-5)⟩

/-- The hypotheses of `C87_infer_partial` are met by a model in which the heuristic has something to do. -/
example : BuiltModel (gmAfter triangleOps) (builtAfter triangleOps).problem ∧ 0 < (builtAfter triangleOps).problem.numLabels.length ∧
    IsPartitionProblem (builtAfter triangleOps).problem ∧ NoParallelTerms (builtAfter triangleOps).problem := by
  refine ⟨triangle_built, by decide, triangle_partition, ?_⟩
  unfold NoParallelTerms
  simp [triangleOps, builtAfter, BuildOp.apply, Built.empty, Built.problem]

/-- The energies of that model are integers. -/
example : ∀ y, (builtAfter triangleOps).problem.Labeling y → ∃ z : ℤ, (builtAfter triangleOps).problem.energy (sumOp ℚ) y = z := by
  intro y _
  have hpotts : ∀ (w : ℤ) (c : List Nat), ∃ z : ℤ, (potts3 w).table c = z := by
    intro w c
    by_cases hc : c[0]? = c[1]?
    · exact ⟨0, by simp [potts3, hc]⟩
    · exact ⟨w, by simp [potts3, hc]⟩
  obtain ⟨a, ha⟩ := hpotts 1 (restrict y [0, 1])
  obtain ⟨b, hb⟩ := hpotts 1 (restrict y [1, 2])
  obtain ⟨c, hc⟩ := hpotts (-5) (restrict y [0, 2])
  refine ⟨3 + a + b + c, ?_⟩
  push_cast at ha hb hc ⊢
  rw [energy_sum, ← ha, ← hb, ← hc]
  simp [triangleOps, builtAfter, BuildOp.apply, Built.empty, Built.problem, Term.value]
  ring

/-- The labels that the constructor and one call of infer() give, for the order of insertion. -/
def labelsAfter (ops : List (BuildOp ℚ)) : Option (List Nat × List Nat) :=
  match construct (gmAfter ops) with
  | .ok st _ => (infer 3 id (fun _ => true) st).bind (fun st' => match arg 3 st 1, arg 3 st' 1 with
    | some x, some x' => some (x, x')
    | _, _ => none)
  | _ => none

example : labelsAfter triangleOps = some ([0, 0, 0], [1, 0, 0]) := by decide +kernel

/-- The hypotheses of `C87_rejects` are met: a problem with a unary factor. -/
def unaryOps : List (BuildOp ℚ) := [.addVariable 3, .addFunction 0 ⟨[3], fun _ => 1⟩, .addFactor 0 [0]]

example : (∃ gm, BuiltModel gm (builtAfter unaryOps).problem) ∧ 0 < (builtAfter unaryOps).problem.numLabels.length ∧ (∀ k ∈ (builtAfter unaryOps).problem.numLabels, 0 < k) ∧
    ¬ IsPartitionProblem (builtAfter unaryOps).problem := by
  refine ⟨builtModel_exists (nTypes := 1) ?_, by decide, by decide, ?_⟩
  · simp [unaryOps, ValidHistory, BuildOp.Valid, BuildOp.apply, Built.empty, restrict]
  · intro h
    have := h.terms ⟨[0], fun _ => 1⟩ (by simp [unaryOps, builtAfter, BuildOp.apply, Built.empty, Built.problem])
    rcases this with h' | ⟨h', _⟩
    · simp at h'
    · simp at h'

/-- C87 is violated if two factors have the same two variables: the constructor counts an edge for each of them, but the neighbour lists keep only the last one, so the
weight of the other one is not seen. For the triangle with weights 1, 1, 100 and -5 (the last two for the same variables), infer() goes from a labeling with energy 3 to a
labeling with energy 99. -/
theorem C87_violated_parallel : ∃ (gm : GM ℚ) (p : Problem ℚ) (st st' : State) (x x' : List Nat), BuiltModel gm p ∧ IsPartitionProblem p ∧ construct gm = .ok st () ∧
    infer p.numLabels.length id (fun _ => true) st = some st' ∧ arg p.numLabels.length st 1 = some x ∧ arg p.numLabels.length st' 1 = some x' ∧
    p.energy (sumOp ℚ) x = 3 ∧ p.energy (sumOp ℚ) x' = 99 := by
  have hlab : labelsAfter parallelOps = some ([0, 0, 0], [1, 0, 0]) := by decide +kernel
  unfold labelsAfter at hlab
  revert hlab
  cases hc : construct (gmAfter parallelOps) with
  | ub => intro h; simp at h
  | throw s => intro h; simp at h
  | ok st u =>
    intro hlab
    simp only [Option.bind_eq_some_iff] at hlab
    obtain ⟨st', hi, hx⟩ := hlab
    simp only [arg] at hx
    simp only [ne_eq, not_true_eq_false, if_false, Option.some.injEq, Prod.mk.injEq] at hx
    refine ⟨_, _, st, st', [0, 0, 0], [1, 0, 0], parallel_built, parallel_partition, hc, hi, ?_, ?_, by decide +kernel, by decide +kernel⟩
    · show arg 3 st 1 = _
      simp [arg, hx.1]
    · show arg 3 st' 1 = _
      simp [arg, hx.2]

end PartitionMove
end OpenGM
