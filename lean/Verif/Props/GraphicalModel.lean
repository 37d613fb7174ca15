import Mathlib.Data.List.Perm.Basic
import Verif.Lemmas.Finalize
/-
C01-C06, C13 (first half): building a model and evaluating it.

Histories are lists of calls `Spec.BuildOp`; `Spec.builtAfter ops` is what a client should have built
(Spec/Build.lean); `Client.run` executes the calls on the model of class GraphicalModel.
`EqvSound eqv` is the contract of the function classes' `operator==` used by addSharedFunction: functions that compare
equal have the same shape and values.
-/
namespace OpenGM
open Spec
variable {V : Type}

/-! ### A concrete history used to show that hypotheses are met -/

/-- Three variables with 2, 3, 2 labels; a constant, a unary, a pairwise factor sharing one function. -/
def demoOps : List (BuildOp Int) :=
  [.addVariable 2, .addVariable 3, .addFunction 0 ⟨[], fun _ => 7⟩, .addVariable 2,
   .addFunction 1 ⟨[3], fun c => c.foldl (fun a l => a * 10 + (l : Int)) 1⟩,
   .addSharedFunction 1 ⟨[2, 3], fun c => c.foldl (fun a l => a * 10 + (l : Int)) 2⟩,
   .addFactor 0 [], .addFactor 1 [1], .addFactor 2 [0, 1], .addFunction 0 ⟨[2, 2], fun c => c.foldl (fun a l => a + l) 0⟩,
   .addFactor 3 [0, 2]]

theorem demoOps_valid : ValidHistory 2 Built.empty demoOps := by
  simp [demoOps, ValidHistory, BuildOp.Valid, BuildOp.apply, Built.empty, restrict]

/-- An `operator==` that never identifies two functions is sound. -/
theorem eqvSound_false : EqvSound (V := V) (fun _ _ => false) := by intro f g h; simp at h

/-- Integers under addition. -/
def intAdd : Operation Int := ⟨0, (· + ·)⟩

theorem intAdd_comm : intAdd.IsCommMonoid := ⟨Int.add_comm, Int.add_assoc, Int.zero_add⟩

/-- C01 (value): after any valid history, `evaluate` of any in-range labeling is defined (no out-of-bounds access) and is
the combination, from the neutral element, of every factor's function applied to the labels of that factor's variables. -/
theorem C01_evaluate (o : Operation V) (eqv : Fn V → Fn V → Bool) (he : EqvSound eqv) (nTypes : Nat)
    (ops : List (BuildOp V)) (hv : ValidHistory nTypes Built.empty ops) :
    ∃ c, (Client.init nTypes).run eqv ops = .ok () c ∧
      ∀ x, (builtAfter ops).problem.Labeling x →
        c.gm.evaluate o x = some ((builtAfter ops).problem.energy o x) := by
  obtain ⟨c, h1, h2⟩ := client_run he ops (client_init nTypes) hv
  exact ⟨c, h1, fun x hx => evaluate_spec o h2.rep.toStores x hx⟩

example : ∃ c, (Client.init 2).run (fun _ _ => false) demoOps = .ok () c ∧ c.gm.evaluate intAdd [1, 2, 1] = some 233 := by
  obtain ⟨c, h1, h2⟩ := C01_evaluate intAdd (fun _ _ => false) eqvSound_false 2 demoOps demoOps_valid
  refine ⟨c, h1, ?_⟩
  rw [h2 [1, 2, 1] ?_]
  · decide
  · refine ⟨by decide, ?_⟩
    intro v l n h1 h2
    have hnl : (builtAfter demoOps).problem.numLabels = [2, 3, 2] := by decide
    rw [hnl] at h2
    match v, h1, h2 with
    | 0, h1, h2 => simp at h1 h2; omega
    | 1, h1, h2 => simp at h1 h2; omega
    | 2, h1, h2 => simp at h1 h2; omega
    | v + 3, h1, h2 => simp at h1

/-- C01 (order): if OPERATOR is commutative and associative, two histories that build the same terms in a different
order evaluate every labeling to the same value. -/
theorem C01_order (o : Operation V) (hc : o.IsCommMonoid) (eqv : Fn V → Fn V → Bool) (he : EqvSound eqv) (nTypes : Nat)
    (ops ops' : List (BuildOp V)) (hv : ValidHistory nTypes Built.empty ops) (hv' : ValidHistory nTypes Built.empty ops')
    (hl : (builtAfter ops).numLabels = (builtAfter ops').numLabels)
    (hp : (builtAfter ops).terms.Perm (builtAfter ops').terms) :
    ∃ c c', (Client.init nTypes).run eqv ops = .ok () c ∧ (Client.init nTypes).run eqv ops' = .ok () c' ∧
      ∀ x, (builtAfter ops).problem.Labeling x → ∃ val, c.gm.evaluate o x = some val ∧ c'.gm.evaluate o x = some val := by
  obtain ⟨c, h1, h2⟩ := C01_evaluate o eqv he nTypes ops hv
  obtain ⟨c', h1', h2'⟩ := C01_evaluate o eqv he nTypes ops' hv'
  refine ⟨c, c', h1, h1', fun x hx => ⟨_, h2 x hx, ?_⟩⟩
  rw [h2' x ?_]
  · congr 1
    unfold Problem.energy Built.problem
    have hp' := (hp.map (fun t => t.value x)).symm
    have : RightCommutative o.op := ⟨fun a b c => by rw [hc.assoc, hc.comm b c, ← hc.assoc]⟩
    exact hp'.foldl_eq _
  · simpa [Problem.Labeling, Built.problem, ← hl] using hx

example : ∃ ops ops' : List (BuildOp Int), ops ≠ ops' ∧ ValidHistory 1 Built.empty ops ∧
    ValidHistory 1 Built.empty ops' ∧ (builtAfter ops).numLabels = (builtAfter ops').numLabels ∧
    (builtAfter ops).terms.Perm (builtAfter ops').terms := by
  refine ⟨[.addVariable 2, .addFunction 0 ⟨[2], fun c => c.length⟩, .addFunction 0 ⟨[], fun _ => 3⟩, .addFactor 0 [0],
      .addFactor 1 []],
    [.addVariable 2, .addFunction 0 ⟨[2], fun c => c.length⟩, .addFunction 0 ⟨[], fun _ => 3⟩, .addFactor 1 [],
      .addFactor 0 [0]], by simp, ?_, ?_, by decide, ?_⟩
  · simp [ValidHistory, BuildOp.Valid, BuildOp.apply, Built.empty, restrict]
  · simp [ValidHistory, BuildOp.Valid, BuildOp.apply, Built.empty, restrict]
  · simp only [builtAfter, List.foldl, BuildOp.apply, Built.empty]
    exact List.Perm.swap _ _ _

/-- C02: after any valid history, the factors listed for a variable are strictly increasing and are exactly the factors
whose variable list contains it; the factor's variable list is the one passed to addFactor. -/
theorem C02_adjacency (eqv : Fn V → Fn V → Bool) (he : EqvSound eqv) (nTypes : Nat)
    (ops : List (BuildOp V)) (hv : ValidHistory nTypes Built.empty ops) :
    ∃ c, (Client.init nTypes).run eqv ops = .ok () c ∧
      c.gm.numberOfVariables = (builtAfter ops).numLabels.length ∧
      c.gm.numberOfFactors = (builtAfter ops).terms.length ∧
      (∀ (f : Nat) (fac : FactorRec) (t : Term V), c.gm.factors[f]? = some fac → (builtAfter ops).terms[f]? = some t → c.gm.scope fac = t.vars) ∧
      ∀ v, v < (builtAfter ops).numLabels.length → ∃ l, c.gm.factorsOfVariable v = some l ∧ l.Pairwise (· < ·) ∧
        ∀ f, f ∈ l ↔ ∃ t : Term V, (builtAfter ops).terms[f]? = some t ∧ v ∈ t.vars := by
  obtain ⟨c, h1, h2⟩ := client_run he ops (client_init nTypes) hv
  have hl : c.gm.numLabels = (builtAfter ops).numLabels := h2.rep.labels
  refine ⟨c, h1, by rw [GM.numberOfVariables, hl], h2.rep.factors.length_eq, ?_, ?_⟩
  · intro f fac t hf ht
    obtain ⟨hf1, hf2⟩ := List.getElem?_eq_some_iff.mp hf
    obtain ⟨ht1, ht2⟩ := List.getElem?_eq_some_iff.mp ht
    have := (h2.rep.factors.get hf1 ht1).scope
    simp only [List.get_eq_getElem] at this
    rw [hf2] at this
    rw [this]
    exact congrArg Term.vars ht2
  · intro v hvl
    refine ⟨_, h2.rep.adj v (by rw [hl]; exact hvl), ?_, ?_⟩
    · exact List.Pairwise.filter _ List.pairwise_lt_range
    · intro f
      rw [List.mem_filter, List.mem_range]
      show f < (builtAfter ops).terms.length ∧ mentions (builtAfter ops).terms v f = true ↔ _
      unfold mentions
      cases ht : (builtAfter ops).terms[f]? with
      | none => simp
      | some t =>
        have := (List.getElem?_eq_some_iff.mp ht).1
        simp [this]

example : ∃ c, (Client.init 2).run (fun _ _ => false) demoOps = .ok () c ∧ c.gm.factorsOfVariable 0 = some [2, 3] := by
  obtain ⟨c, h1, h2⟩ := client_run (eqvSound_false (V := Int)) demoOps (client_init 2) demoOps_valid
  refine ⟨c, h1, ?_⟩
  rw [GM.factorsOfVariable, h2.rep.adj 0 (by rw [h2.rep.labels]; decide)]
  decide

/-- C13 (factorOrder): after any valid history `factorOrder()` is the number of variables of the largest factor. -/
theorem C13_factorOrder (eqv : Fn V → Fn V → Bool) (he : EqvSound eqv) (nTypes : Nat)
    (ops : List (BuildOp V)) (hv : ValidHistory nTypes Built.empty ops) :
    ∃ c, (Client.init nTypes).run eqv ops = .ok () c ∧
      (∀ t ∈ (builtAfter ops).terms, t.vars.length ≤ c.gm.factorOrder) ∧
      (c.gm.factorOrder = 0 ∨ ∃ t ∈ (builtAfter ops).terms, t.vars.length = c.gm.factorOrder) := by
  obtain ⟨c, h1, h2⟩ := client_run he ops (client_init nTypes) hv
  refine ⟨c, h1, ?_, ?_⟩
  · intro t ht
    rw [GM.factorOrder, h2.rep.order]
    exact (le_foldl_max _ _).2 _ (List.mem_map.mpr ⟨t, ht, rfl⟩)
  · rw [GM.factorOrder, h2.rep.order]
    show _ ∨ ∃ t ∈ (builtAfter ops).terms, _ = ((builtAfter ops).terms.map _).foldl max 0
    have key : ∀ (l : List (Term V)) (a : Nat), (l.map (fun t => t.vars.length)).foldl max a = a ∨
        ∃ t ∈ l, t.vars.length = (l.map (fun t => t.vars.length)).foldl max a := by
      intro l
      induction l with
      | nil => simp
      | cons t l ih =>
        intro a
        simp only [List.map_cons, List.foldl_cons]
        rcases ih (max a t.vars.length) with h | ⟨t', h3, h4⟩
        · rcases max_choice a t.vars.length with h5 | h5
          · left; rw [h, h5]
          · right; exact ⟨t, by simp, by rw [h, h5]⟩
        · right; exact ⟨t', by simp [h3], h4⟩
    exact key _ 0

example : ∃ c, (Client.init 2).run (fun _ _ => false) demoOps = .ok () c ∧ c.gm.factorOrder = 2 := by
  obtain ⟨c, h1, h2⟩ := client_run (eqvSound_false (V := Int)) demoOps (client_init 2) demoOps_valid
  refine ⟨c, h1, ?_⟩
  rw [GM.factorOrder, h2.rep.order]
  decide

/-- C03: from any model built by a valid history, adding any list of valid factors with addFactorNonFinalized and
calling finalize gives exactly the object that adding them with addFactor gives (all data members equal, hence the same
factors, adjacency and evaluate). -/
theorem C03_finalize (eqv : Fn V → Fn V → Bool) (he : EqvSound eqv) (nTypes : Nat)
    (ops : List (BuildOp V)) (hv : ValidHistory nTypes Built.empty ops) :
    ∃ c, (Client.init nTypes).run eqv ops = .ok () c ∧
      ∀ l : List (FunctionIdentifier × List Nat),
        (∀ x ∈ l, x.2.Pairwise (· < ·) ∧ (∀ v ∈ x.2, v < c.gm.numberOfVariables) ∧
          ∃ fn, c.gm.getFunction x.1 = some fn ∧ fn.shape = restrict c.gm.numLabels x.2) →
        ∃ gm' gm'', addFactors c.gm l = .ok () gm' ∧ addFactorsNonFinalized c.gm l = .ok () gm'' ∧
          gm''.finalize = some gm' := by
  obtain ⟨c, h1, h2⟩ := client_run he ops (client_init nTypes) hv
  refine ⟨c, h1, fun l hl => ?_⟩
  obtain ⟨gm', gm'', _, r1, r2, r3, _⟩ := addFactors_equiv l c.gm c.gm _ h2.rep h2.rep.toStores rfl hl
  exact ⟨gm', gm'', r1, r2, r3⟩

example : ∃ c, (Client.init 2).run (fun _ _ => false) demoOps = .ok () c ∧
    ∀ x ∈ [((⟨0, 1⟩ : FunctionIdentifier), [1]), (⟨1, 1⟩, [0, 1])], x.2.Pairwise (· < ·) ∧
      (∀ v ∈ x.2, v < c.gm.numberOfVariables) ∧
      ∃ fn, c.gm.getFunction x.1 = some fn ∧ fn.shape = restrict c.gm.numLabels x.2 := by
  refine ⟨_, rfl, ?_⟩
  intro x hx
  simp only [List.mem_cons, List.not_mem_nil, or_false] at hx
  rcases hx with rfl | rfl
  · exact ⟨by decide, by decide, _, rfl, by decide⟩
  · exact ⟨by decide, by decide, _, rfl, by decide⟩

/-- C04, what holds: `addFactor` on a model built by any valid history never has undefined behaviour, whatever the
variables; it throws exactly if the variables are not strictly increasing or not all in range; when it throws, the
variables, the functions, and all factors present before are unchanged.
Missing for the full claim: the number of factors, the factor order and the adjacency do change (`C04_violated`). -/
theorem C04_rejected_partial (eqv : Fn V → Fn V → Bool) (he : EqvSound eqv) (nTypes : Nat)
    (ops : List (BuildOp V)) (hv : ValidHistory nTypes Built.empty ops) :
    ∃ c, (Client.init nTypes).run eqv ops = .ok () c ∧
      ∀ fid vars,
        ((vars.Pairwise (· < ·) ∧ ∀ v ∈ vars, v < c.gm.numberOfVariables) →
          ∃ gm', c.gm.addFactor fid vars = .ok c.gm.numberOfFactors gm') ∧
        (¬ (vars.Pairwise (· < ·) ∧ ∀ v ∈ vars, v < c.gm.numberOfVariables) →
          ∃ gm', c.gm.addFactor fid vars = .throw gm' ∧ gm'.numLabels = c.gm.numLabels ∧
            gm'.functions = c.gm.functions ∧
            ∀ (f : Nat) (fac : FactorRec), c.gm.factors[f]? = some fac →
              gm'.factors[f]? = some fac ∧ gm'.scope fac = c.gm.scope fac) := by
  obtain ⟨c, h1, h2⟩ := client_run he ops (client_init nTypes) hv
  refine ⟨c, h1, fun fid vars => ?_⟩
  rcases addFactor_total c.gm fid vars h2.rep.adjLen with ⟨hok, adj', h, _⟩ | ⟨hbad, adj', h, _⟩
  · exact ⟨fun _ => ⟨_, h⟩, fun hn => absurd hok hn⟩
  · refine ⟨fun hok => absurd hok hbad, fun _ => ⟨_, h, rfl, rfl, ?_⟩⟩
    intro f fac hf
    obtain ⟨hf1, hf2⟩ := List.getElem?_eq_some_iff.mp hf
    refine ⟨?_, ?_⟩
    · simp only [GM.pushFactor]
      rw [List.getElem?_append_left hf1]; exact hf
    · have hlen := h2.rep.factors.length_eq
      have hm := h2.rep.factors.get hf1 (by omega)
      simp only [List.get_eq_getElem] at hm
      rw [hf2] at hm
      have hb := hm.bound
      simp only [GM.pushFactor, GM.scope]
      rw [List.drop_append_of_le_length (by omega), List.take_append_of_le_length]
      simp; omega

/-- C04 is violated by every rejected call: the model left behind has one more factor than before. -/
theorem C04_violated (eqv : Fn V → Fn V → Bool) (he : EqvSound eqv) (nTypes : Nat)
    (ops : List (BuildOp V)) (hv : ValidHistory nTypes Built.empty ops) :
    ∃ c, (Client.init nTypes).run eqv ops = .ok () c ∧
      ∀ fid vars gm', c.gm.addFactor fid vars = .throw gm' → gm'.numberOfFactors = c.gm.numberOfFactors + 1 := by
  obtain ⟨c, h1, h2⟩ := client_run he ops (client_init nTypes) hv
  refine ⟨c, h1, fun fid vars gm' ht => ?_⟩
  rcases addFactor_total c.gm fid vars h2.rep.adjLen with ⟨hok, adj', h, _⟩ | ⟨hbad, adj', h, _⟩
  · rw [h] at ht; simp at ht
  · rw [h] at ht
    injection ht with ht
    subst ht
    simp [GM.numberOfFactors, GM.pushFactor]

/-- A rejected call can also leave a wrong adjacency and make `evaluate` of the old labeling undefined: variables
`[0, 5]` in a two variable model. -/
theorem C04_witness : ∃ c gm' : Client Int,
    (Client.init 1).run (fun _ _ => false) [.addVariable 2, .addVariable 2, .addFunction 0 ⟨[2, 2], fun _ => 1⟩] = .ok () c ∧
    c.step (fun _ _ => false) (.addFactor 0 [0, 5]) = .throw gm' ∧
    c.gm.factorsOfVariable 0 = some [] ∧ gm'.gm.factorsOfVariable 0 = some [0] ∧
    c.gm.evaluate intAdd [0, 0] = some 0 ∧ gm'.gm.evaluate intAdd [0, 0] = none :=
  ⟨_, _, rfl, rfl, by decide, by decide, by decide, by decide⟩

/-- C05 (meaning): after any valid history, the identifier returned for every function denotes that function (same shape,
same values). -/
theorem C05_identifiers (eqv : Fn V → Fn V → Bool) (he : EqvSound eqv) (nTypes : Nat)
    (ops : List (BuildOp V)) (hv : ValidHistory nTypes Built.empty ops) :
    ∃ c, (Client.init nTypes).run eqv ops = .ok () c ∧ c.ids.length = (builtAfter ops).handles.length ∧
      ∀ (h : Nat) (id : FunctionIdentifier) (f : Table V), c.ids[h]? = some id → (builtAfter ops).handles[h]? = some f →
        ∃ fn, c.gm.getFunction id = some fn ∧ fn.shape = f.shape ∧ ∀ x, InShape f.shape x → fn.table x = f.table x := by
  obtain ⟨c, h1, h2⟩ := client_run he ops (client_init nTypes) hv
  refine ⟨c, h1, h2.ids.length_eq, ?_⟩
  intro h id f hid hf
  obtain ⟨hid1, hid2⟩ := List.getElem?_eq_some_iff.mp hid
  obtain ⟨hf1, hf2⟩ := List.getElem?_eq_some_iff.mp hf
  obtain ⟨fn, a, b, d⟩ := h2.ids.get hid1 hf1
  simp only [List.get_eq_getElem] at a b d
  rw [hid2] at a
  have hb : fn.shape = f.shape := by rw [b]; exact congrArg Table.shape hf2
  refine ⟨fn, a, hb, fun x hx => ?_⟩
  rw [d x (by rw [hb]; exact hx)]
  exact congrFun (congrArg Table.table hf2) x

/-- One call keeps the meaning of every identifier (no precondition: also for calls that throw). -/
theorem getFunction_step (eqv : Fn V → Fn V → Bool) (c c' : Client V) (op : BuildOp V)
    (h : c.step eqv op = .ok () c' ∨ c.step eqv op = .throw c') (ha : c.gm.adj.length = c.gm.numLabels.length) :
    c'.gm.adj.length = c'.gm.numLabels.length ∧
      ∀ id fn, c.gm.getFunction id = some fn → c'.gm.getFunction id = some fn := by
  cases op with
  | addVariable n =>
    simp only [Client.step, reduceCtorEq, or_false] at h
    injection h with _ h; subst h
    exact ⟨by simp [GM.addVariable, ha], fun id fn hf => hf⟩
  | addFunction ty f =>
    simp only [Client.step, GM.addFunction] at h
    cases ht : c.gm.functions[ty]? with
    | none => simp [ht] at h
    | some tbl =>
      simp only [ht, reduceCtorEq, or_false] at h
      injection h with _ h; subst h
      exact ⟨ha, fun id fn hf => getFunction_set _ _ _ _ _ _ ht hf⟩
  | addSharedFunction ty f =>
    simp only [Client.step, GM.addSharedFunction] at h
    cases ht : c.gm.functions[ty]? with
    | none => simp [ht] at h
    | some tbl =>
      simp only [ht] at h
      cases hf : GM.findFunction eqv f tbl 0 with
      | none =>
        simp only [hf, reduceCtorEq, or_false] at h
        injection h with _ h; subst h
        exact ⟨ha, fun id fn hf => getFunction_set _ _ _ _ _ _ ht hf⟩
      | some i =>
        simp only [hf, reduceCtorEq, or_false] at h
        injection h with _ h; subst h
        exact ⟨ha, fun id fn hf => hf⟩
  | addFactor hd vars =>
    simp only [Client.step] at h
    cases hid : c.ids[hd]? with
    | none => simp [hid] at h
    | some id =>
      simp only [hid] at h
      rcases addFactor_total c.gm id vars ha with ⟨hok, adj', e, e2⟩ | ⟨hbad, adj', e, e2⟩
      · simp only [e, reduceCtorEq, or_false] at h
        injection h with _ h; subst h
        exact ⟨by simpa [GM.pushFactor, ha] using e2, fun id fn hf => hf⟩
      · simp only [e, reduceCtorEq, false_or] at h
        injection h with h; subst h
        exact ⟨by simpa [GM.pushFactor, ha] using e2, fun id fn hf => hf⟩

/-- C05 (stability): what an identifier denotes is never changed by later calls, whatever these are. -/
theorem C05_stable (eqv : Fn V → Fn V → Bool) (ops : List (BuildOp V)) :
    ∀ (c c' : Client V), c.gm.adj.length = c.gm.numLabels.length →
      (c.run eqv ops = .ok () c' ∨ c.run eqv ops = .throw c') →
      ∀ id fn, c.gm.getFunction id = some fn → c'.gm.getFunction id = some fn := by
  induction ops with
  | nil =>
    intro c c' _ h id fn hf
    simp only [Client.run, reduceCtorEq, or_false] at h
    injection h with _ h; subst h; exact hf
  | cons op ops ih =>
    intro c c' ha h id fn hf
    simp only [Client.run] at h
    cases hs : c.step eqv op with
    | ok u c1 =>
      simp only [hs] at h
      obtain ⟨h1, h2⟩ := getFunction_step eqv c c1 op (Or.inl hs) ha
      exact ih c1 c' h1 h id fn (h2 id fn hf)
    | throw c1 =>
      simp only [hs, reduceCtorEq, false_or] at h
      injection h with h; subst h
      exact (getFunction_step eqv c c1 op (Or.inr hs) ha).2 id fn hf
    | ub => simp [hs] at h

example : (Client.init 2 : Client Int).gm.adj.length = (Client.init 2 : Client Int).gm.numLabels.length := rfl

/-- C05 (sharing): addSharedFunction returns an existing identifier, of an equal stored function, without changing the
model, exactly if such a function is stored; otherwise it stores the function once and returns its new identifier. -/
theorem C05_shared (eqv : Fn V → Fn V → Bool) (gm : GM V) (ty : Nat) (f : Fn V) (tbl : List (Fn V))
    (ht : gm.functions[ty]? = some tbl) :
    ((∃ g ∈ tbl, eqv f g = true) →
      ∃ id g, gm.addSharedFunction eqv ty f = some (id, gm) ∧ gm.getFunction id = some g ∧ eqv f g = true) ∧
    ((∀ g ∈ tbl, eqv f g = false) →
      ∃ id gm', gm.addSharedFunction eqv ty f = some (id, gm') ∧ gm.getFunction id = none ∧
        gm'.getFunction id = some f ∧ gm'.functions = gm.functions.set ty (tbl ++ [f])) := by
  constructor
  · rintro ⟨g, hg, he⟩
    cases hf : GM.findFunction eqv f tbl 0 with
    | none => rw [findFunction_none] at hf; rw [hf g hg] at he; simp at he
    | some i =>
      obtain ⟨_, g', h1, h2⟩ := findFunction_spec eqv f _ _ _ hf
      refine ⟨⟨i, ty⟩, g', by simp [GM.addSharedFunction, ht, hf], ?_, h2⟩
      simpa [GM.getFunction, ht] using h1
  · intro h
    have hf := (findFunction_none eqv f tbl 0).mpr h
    refine ⟨⟨tbl.length, ty⟩, _, by simp only [GM.addSharedFunction, ht, hf], ?_, getFunction_new gm ty tbl f ht, rfl⟩
    simp [GM.getFunction, ht]

/-- The operation adds functions only through addSharedFunction. -/
def SharedOnly : BuildOp V → Prop
  | .addFunction _ _ => False
  | _ => True

/-- C05 (no duplicates): a model whose functions were only added with addSharedFunction never stores two equal functions
of one type. -/
theorem C05_nodup (eqv : Fn V → Fn V → Bool) (nTypes : Nat) (ops : List (BuildOp V)) (hs : ∀ op ∈ ops, SharedOnly op)
    (c : Client V) (h : (Client.init nTypes).run eqv ops = .ok () c) :
    ∀ tbl ∈ c.gm.functions, tbl.Pairwise (fun g f => eqv f g = false) := by
  have key : ∀ (ops : List (BuildOp V)) (c c' : Client V), (∀ op ∈ ops, SharedOnly op) →
      (∀ tbl ∈ c.gm.functions, tbl.Pairwise (fun g f => eqv f g = false)) → c.gm.adj.length = c.gm.numLabels.length →
      c.run eqv ops = .ok () c' → ∀ tbl ∈ c'.gm.functions, tbl.Pairwise (fun g f => eqv f g = false) := by
    intro ops
    induction ops with
    | nil =>
      intro c c' _ hd _ h
      simp only [Client.run] at h
      injection h with _ h; subst h; exact hd
    | cons op ops ih =>
      intro c c' hs hd ha h
      simp only [Client.run] at h
      cases hst : c.step eqv op with
      | throw c1 => simp [hst] at h
      | ub => simp [hst] at h
      | ok u c1 =>
        simp only [hst] at h
        have ha1 := (getFunction_step eqv c c1 op (Or.inl hst) ha).1
        refine ih c1 c' (fun op hop => hs op (by simp [hop])) ?_ ha1 h
        have hop := hs op (by simp)
        cases op with
        | addVariable n =>
          simp only [Client.step] at hst
          injection hst with _ hst; subst hst; exact hd
        | addFunction ty f => exact absurd hop (by simp [SharedOnly])
        | addSharedFunction ty f =>
          simp only [Client.step, GM.addSharedFunction] at hst
          cases ht : c.gm.functions[ty]? with
          | none => simp [ht] at hst
          | some tbl =>
            simp only [ht] at hst
            cases hf : GM.findFunction eqv f tbl 0 with
            | some i =>
              simp only [hf] at hst
              injection hst with _ hst; subst hst; exact hd
            | none =>
              simp only [hf] at hst
              injection hst with _ hst; subst hst
              intro tb htb
              rcases List.mem_or_eq_of_mem_set htb with h1 | h1
              · exact hd tb h1
              · subst h1
                rw [findFunction_none] at hf
                rw [List.pairwise_append]
                refine ⟨hd tbl (List.mem_of_getElem? ht), by simp, ?_⟩
                intro g hg f' hf'
                simp only [List.mem_singleton] at hf'
                subst hf'; exact hf g hg
        | addFactor hd' vars =>
          simp only [Client.step] at hst
          cases hid : c.ids[hd']? with
          | none => simp [hid] at hst
          | some id =>
            simp only [hid] at hst
            rcases addFactor_total c.gm id vars ha with ⟨_, adj', e, _⟩ | ⟨_, adj', e, _⟩
            · simp only [e] at hst
              injection hst with _ hst; subst hst; exact hd
            · simp [e] at hst
  refine key ops _ c hs ?_ rfl h
  intro tbl htbl
  simp only [Client.init, GM.empty] at htbl
  rw [List.eq_of_mem_replicate htbl]
  exact List.Pairwise.nil

example : ∃ c : Client Int, (Client.init 1).run (fun f g => decide (f.shape = g.shape))
    [.addVariable 2, .addSharedFunction 0 ⟨[2], fun _ => 1⟩, .addSharedFunction 0 ⟨[2], fun _ => 1⟩,
     .addFactor 0 [0], .addFactor 1 [0]] = .ok () c ∧
    c.ids = [⟨0, 0⟩, ⟨0, 0⟩] ∧ c.gm.functions.map List.length = [1] := ⟨_, rfl, rfl, rfl⟩

/-- C06 is violated: `operator<` of function identifiers is not antisymmetric, hence no strict order. -/
theorem C06_violated : ∃ a b : FunctionIdentifier, a.lt b = true ∧ b.lt a = true ∧ a.eq b = false ∧
    a.gt b = true ∧ b.gt a = true :=
  ⟨⟨1, 0⟩, ⟨0, 1⟩, by decide, by decide, by decide, by decide, by decide⟩

/-- C06, what holds: among identifiers of one function type, `<` is a strict total order consistent with `==`, and the
other operators are the derived ones. Missing for the full claim: identifiers of different types (`C06_violated`). -/
theorem C06_order_partial (ty : Nat) (a b c : FunctionIdentifier) (ha : a.functionType = ty) (hb : b.functionType = ty)
    (hc : c.functionType = ty) :
    a.lt a = false ∧ (a.lt b = true → b.lt c = true → a.lt c = true) ∧
    (a.lt b = true ∨ a.eq b = true ∨ b.lt a = true) ∧ (a.lt b = true → a.eq b = false ∧ b.lt a = false) ∧
    a.gt b = b.lt a := by
  subst ha
  simp only [FunctionIdentifier.lt, FunctionIdentifier.eq, FunctionIdentifier.gt, hb, hc, lt_irrefl, if_false,
    decide_eq_true_eq, decide_eq_false_iff_not, decide_true, Bool.true_and, gt_iff_lt]
  refine ⟨fun h => h, ?_, ?_, ?_, trivial⟩ <;> omega

/-- Even within one function type, `<=` and `>=` are not `not >` and `not <`: they are always true. -/
theorem C06_le_violated (a b : FunctionIdentifier) (h : a.functionType = b.functionType) :
    a.le b = true ∧ a.ge b = true := by
  simp [FunctionIdentifier.le, FunctionIdentifier.ge, h]

/-- `==` is equality. -/
theorem C06_eq (a b : FunctionIdentifier) : a.eq b = true ↔ a = b := by
  cases a; cases b; simp [FunctionIdentifier.eq]; tauto

example : (⟨1, 2⟩ : FunctionIdentifier).functionType = 2 ∧ (⟨3, 2⟩ : FunctionIdentifier).functionType = 2 ∧
    (⟨1, 2⟩ : FunctionIdentifier).lt ⟨3, 2⟩ = true := by decide

end OpenGM
