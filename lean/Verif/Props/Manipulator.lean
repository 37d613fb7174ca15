import Verif.Lemmas.ManipulatorRun
import Verif.Props.GraphicalModel
/-
C28: GraphicalModelManipulator. A history is any valid sequence of the calls fixVariable, freeVariable, freeAllVariables, lock, unlock,
buildModifiedModel, buildModifiedSubModels (Spec/Fixing.lean) on a manipulator constructed for a model built through the API.
Values of the modified models are `Option V`, `none` marking an undefined access inside the views.
-/
namespace OpenGM
open Spec
namespace Manipulator
variable {V : Type}

/-- The value a modified model should have at labeling `x` of all variables: in mode FIX the objective, in mode DROP the objective without the
factors that have a fixed variable. -/
def Target (o : Operation V) (mode : Mode) (gm : GM V) (p : Problem V) (fix : List (Option Nat)) (x : List Nat) (e : V) : Prop :=
  match mode with
  | .fix => gm.evaluate o x = some e
  | .drop => e = (p.dropFixed fix).energy o x

theorem target (o : Operation V) (mode : Mode) {gm : GM V} {p : Problem V} (hr : Represents gm p) (fix : List (Option Nat)) {x : List Nat}
    (hx : p.Labeling x) : Target o mode gm p fix x (modifiedEnergy o mode p fix x) := by
  cases mode with
  | fix => exact evaluate_spec o hr.toStores x hx
  | drop => rfl

/-- C28 (no undefined behaviour): every valid history runs. -/
theorem C28_runs_partial (o : Operation V) (ho : o.IsCommMonoid) (gm : GM V) (p : Problem V) (hb : BuiltModel gm p) (hpos : ∀ n ∈ p.numLabels, 0 < n)
    (mode : Mode) (ops : List FixOp) (hv : ValidFixing p.numLabels (Fixing.init p.numLabels.length) ops)
    (hsub : .buildSub ∈ ops → mode = .fix → ∀ t ∈ p.terms, t.vars ≠ []) :
    ∃ m, run o (construct gm mode) ops = some m ∧ m.locked = (fixingAfter p.numLabels.length ops).locked := by
  obtain ⟨m, e, h⟩ := inv_run ho ops _ _ (inv_construct o hb.represents hpos mode) hv hsub
  exact ⟨m, e, h.locked⟩

/-- C28 (modified model): whenever the modified model has been built since the last `unlock`, its variables are the free variables,
`modifiedState2OriginalState` of a labeling of them is the labeling of all variables that has the fixed labels, every labeling with the fixed
labels is obtained, and the modified model has the value of the original model there (mode DROP: without the factors with fixed variables).
Missing: building without a preceding call of `lock` is undefined (`C28_nolock_violated`); tentacle elimination, whose start is undefined for many models (`C28_tentacle_violated`). -/
theorem C28_modifiedModel_partial (o : Operation V) (ho : o.IsCommMonoid) (gm : GM V) (p : Problem V) (hb : BuiltModel gm p)
    (hpos : ∀ n ∈ p.numLabels, 0 < n) (mode : Mode) (ops : List FixOp) (hv : ValidFixing p.numLabels (Fixing.init p.numLabels.length) ops)
    (hsub : .buildSub ∈ ops → mode = .fix → ∀ t ∈ p.terms, t.vars ≠ []) (m : Manip V) (hm : run o (construct gm mode) ops = some m)
    (hbuilt : (fixingAfter p.numLabels.length ops).built = true) :
    m.mgm.numLabels = freeLabels (fixingAfter p.numLabels.length ops).fix p.numLabels ∧
    (∀ ml ol, (⟨m.mgm.numLabels, ([] : List (Term V))⟩ : Problem V).Labeling ml → ∃ x e,
      modifiedState2OriginalState m ml ol = some x ∧ x = fillIn (fixingAfter p.numLabels.length ops).fix ml ∧ p.Labeling x ∧
      Respects (fixingAfter p.numLabels.length ops).fix x ∧ m.mgm.evaluate (liftOp o) ml = some (some e) ∧
      Target o mode gm p (fixingAfter p.numLabels.length ops).fix x e) ∧
    ∀ x, p.Labeling x → Respects (fixingAfter p.numLabels.length ops).fix x →
      ∃ ml, (⟨m.mgm.numLabels, ([] : List (Term V))⟩ : Problem V).Labeling ml ∧ ∀ ol, modifiedState2OriginalState m ml ol = some x := by
  obtain ⟨m', e, h⟩ := inv_run ho ops _ _ (inv_construct o hb.represents hpos mode) hv hsub
  rw [hm] at e
  simp only [Option.some.injEq] at e
  subst e
  replace h : Inv o gm mode p (fixingAfter p.numLabels.length ops) m := h
  generalize fixingAfter p.numLabels.length ops = s at *
  obtain ⟨q, hq1, hq2⟩ := h.built hbuilt
  have hlk : m.locked = true := by rw [h.locked]; exact h.builtLocked hbuilt
  have hlab : m.mgm.numLabels = freeLabels s.fix p.numLabels := hq1.labels
  have hfl : ∀ ml : List Nat, (⟨m.mgm.numLabels, ([] : List (Term V))⟩ : Problem V).Labeling ml → ml.length = rank (freeSel s.fix) s.fix.length := by
    intro ml hml
    have := hml.1
    simp only [hlab] at this
    rw [this, freeLabels_eq, length_pick _ _ (by simp [freeSel, h.d.len])]
    simp [freeSel]
  have horig : ∀ ml ol, (⟨m.mgm.numLabels, ([] : List (Term V))⟩ : Problem V).Labeling ml → modifiedState2OriginalState m ml ol = some (fillIn s.fix ml) := by
    intro ml ol hml
    unfold modifiedState2OriginalState
    have hn : ml.length = m.mgm.numberOfVariables := hml.1
    rw [hlk, decide_eq_true hn]
    have := originalLoop_spec h.d.enc ml (hfl ml hml) s.fix.length 0 0 (by omega) (by simp [rank])
    rw [GM.numberOfVariables, h.d.rep.labels, ← h.d.len]
    simpa using this
  refine ⟨hlab, ?_, ?_⟩
  · intro ml ol hml
    have hml' : (⟨freeLabels s.fix p.numLabels, ([] : List (Term V))⟩ : Problem V).Labeling ml := by rw [← hlab]; exact hml
    have hx := fillIn_labeling h.d.len h.d.range hml'
    refine ⟨_, modifiedEnergy o mode p s.fix (fillIn s.fix ml), horig ml ol hml, rfl, hx, fillIn_respects _ _ (hfl ml hml), ?_, target o mode hb.represents _ hx⟩
    rw [evaluate_spec (liftOp o) hq1.toStores ml hml', hq2 ml hml']
  · intro x hx hr
    have hml : (⟨m.mgm.numLabels, ([] : List (Term V))⟩ : Problem V).Labeling (pick (freeSel s.fix) x) := by
      rw [hlab, freeLabels_eq]
      refine ⟨?_, ?_⟩
      · rw [length_pick _ _ (by simp [freeSel, hx.1, h.d.len]), length_pick _ _ (by simp [freeSel, h.d.len])]
      · intro i l k h1 h2
        obtain ⟨v, g1, g2⟩ := pick_get _ _ _ hx.1 i l k h1 h2
        exact hx.2 v l k g1 g2
    refine ⟨_, hml, fun ol => ?_⟩
    rw [horig _ ol hml, fillIn_pick s.fix x (by rw [hx.1, h.d.len]) hr]

/-- C28 (submodels): whenever the submodels have been built since the last `unlock`, `modifiedSubStates2OriginalState` of labelings of all
submodels is a labeling of all variables that has the fixed labels, every such labeling is obtained, and the values of the submodels combine
to the value of the original model there. Missing: as above; in mode FIX, models that have a factor without variables. -/
theorem C28_submodels_partial (o : Operation V) (ho : o.IsCommMonoid) (gm : GM V) (p : Problem V) (hb : BuiltModel gm p)
    (hpos : ∀ n ∈ p.numLabels, 0 < n) (mode : Mode) (ops : List FixOp) (hv : ValidFixing p.numLabels (Fixing.init p.numLabels.length) ops)
    (hsub : mode = .fix → ∀ t ∈ p.terms, t.vars ≠ []) (m : Manip V) (hm : run o (construct gm mode) ops = some m)
    (hbuilt : (fixingAfter p.numLabels.length ops).builtSub = true) :
    (∀ subconf : List (List Nat), subconf.length = m.submodels.length →
      (∀ (s : Nat) (g : GM (Option V)) (conf : List Nat), m.submodels[s]? = some g → subconf[s]? = some conf →
        (⟨g.numLabels, ([] : List (Term V))⟩ : Problem V).Labeling conf) →
      ∃ (x : List Nat) (vs : List V), modifiedSubStates2OriginalState m subconf = some x ∧ p.Labeling x ∧
        Respects (fixingAfter p.numLabels.length ops).fix x ∧ vs.length = m.submodels.length ∧
        (∀ (s : Nat) (g : GM (Option V)) (conf : List Nat), m.submodels[s]? = some g → subconf[s]? = some conf →
          ∃ v, vs[s]? = some v ∧ g.evaluate (liftOp o) conf = some (some v)) ∧
        Target o mode gm p (fixingAfter p.numLabels.length ops).fix x (vs.foldl o.op o.neutral)) ∧
    ∀ x, p.Labeling x → Respects (fixingAfter p.numLabels.length ops).fix x → ∃ subconf : List (List Nat), subconf.length = m.submodels.length ∧
      (∀ (s : Nat) (g : GM (Option V)) (conf : List Nat), m.submodels[s]? = some g → subconf[s]? = some conf →
        (⟨g.numLabels, ([] : List (Term V))⟩ : Problem V).Labeling conf) ∧
      modifiedSubStates2OriginalState m subconf = some x := by
  obtain ⟨m', e, h⟩ := inv_run ho ops _ _ (inv_construct o hb.represents hpos mode) hv (fun _ => hsub)
  rw [hm] at e
  simp only [Option.some.injEq] at e
  subst e
  replace h : Inv o gm mode p (fixingAfter p.numLabels.length ops) m := h
  generalize fixingAfter p.numLabels.length ops = s at *
  obtain ⟨count, hq⟩ := h.builtSub hbuilt
  constructor
  · intro subconf hl hlab
    have hsl : SubLabelings (V := V) s.fix m.var2subProblem p.numLabels (max count 1) subconf := by
      refine ⟨by rw [hl, hq.len], ?_⟩
      intro i conf hc
      have hi : i < m.submodels.length := by rw [← hl]; exact (List.getElem?_eq_some_iff.mp hc).1
      have hg := List.getElem?_eq_getElem hi
      have := hlab i _ conf hg hc
      rw [hq.labels i _ hg] at this
      exact this
    have hpair := joined_pair h.d.len h.d.range (n := max count 1) (by
      intro v hv hf
      obtain ⟨i, hi, hvs⟩ := hq.comp.lt v (free_iff.mpr ⟨hv, hf⟩)
      exact ⟨i, by omega, hvs⟩) hsl
    obtain ⟨vs, hvl, hve, hvt⟩ := hq.value subconf _ hsl hpair
    refine ⟨_, vs, modifiedSubStates_spec h.d hq hsl.1 hpair, hpair.labeling, hpair.respects, by rw [hvl, hq.len], hve, ?_⟩
    have : vs.foldl o.op o.neutral = total o vs := rfl
    rw [this, hvt]
    exact target o mode hb.represents _ hpair.labeling
  · intro x hx hr
    obtain ⟨h1, h2⟩ := divided_pair h.d.len (n := max count 1) (v2s := m.var2subProblem) hx hr
    refine ⟨_, by rw [h2.1, hq.len], ?_, modifiedSubStates_spec h.d hq h2.1 h1⟩
    intro i g conf hg hc
    rw [hq.labels i g hg]
    exact h2.2 i conf hc

/-- C28 (splitting): the submodels are the connected components: two free variables are put into the same submodel if and only if they are
connected through terms with free variables; no submodel is empty unless all variables are fixed. -/
theorem C28_components_partial (o : Operation V) (ho : o.IsCommMonoid) (gm : GM V) (p : Problem V) (hb : BuiltModel gm p)
    (hpos : ∀ n ∈ p.numLabels, 0 < n) (mode : Mode) (ops : List FixOp) (hv : ValidFixing p.numLabels (Fixing.init p.numLabels.length) ops)
    (hsub : mode = .fix → ∀ t ∈ p.terms, t.vars ≠ []) (m : Manip V) (hm : run o (construct gm mode) ops = some m)
    (hbuilt : (fixingAfter p.numLabels.length ops).builtSub = true) :
    (∀ v, Free (fixingAfter p.numLabels.length ops).fix v → ∃ s, s < m.submodels.length ∧ m.var2subProblem[v]? = some s) ∧
    (∀ v w, Free (fixingAfter p.numLabels.length ops).fix v → Free (fixingAfter p.numLabels.length ops).fix w →
      (m.var2subProblem[v]? = m.var2subProblem[w]? ↔ Relation.ReflTransGen (FreeNeighbours p (fixingAfter p.numLabels.length ops).fix) v w)) ∧
    ((∃ v, Free (fixingAfter p.numLabels.length ops).fix v) →
      ∀ s, s < m.submodels.length → ∃ v, Free (fixingAfter p.numLabels.length ops).fix v ∧ m.var2subProblem[v]? = some s) := by
  obtain ⟨m', e, h⟩ := inv_run ho ops _ _ (inv_construct o hb.represents hpos mode) hv (fun _ => hsub)
  rw [hm] at e
  simp only [Option.some.injEq] at e
  subst e
  replace h : Inv o gm mode p (fixingAfter p.numLabels.length ops) m := h
  generalize fixingAfter p.numLabels.length ops = s at *
  obtain ⟨count, hq⟩ := h.builtSub hbuilt
  refine ⟨?_, hq.comp.connected, ?_⟩
  · intro v hv
    obtain ⟨i, hi, hvs⟩ := hq.comp.lt v hv
    exact ⟨i, by rw [hq.len]; omega, hvs⟩
  · rintro ⟨v, hv⟩ i hi
    obtain ⟨j, hj, _⟩ := hq.comp.lt v hv
    rw [hq.len] at hi
    exact hq.comp.used i (by omega)

/-! ### Concrete cases -/

/-- Four variables in a chain, with terms on (0), (0,1), (1,2), (2,3). -/
def chainOps : List (BuildOp Int) :=
  [.addVariable 2, .addVariable 3, .addVariable 2, .addVariable 2,
   .addFunction 0 ⟨[2], fun c => c.foldl (fun a l => a * 10 + (l : Int)) 1⟩,
   .addFunction 0 ⟨[2, 3], fun c => c.foldl (fun a l => a * 10 + (l : Int)) 2⟩,
   .addFunction 0 ⟨[3, 2], fun c => c.foldl (fun a l => a * 10 + (l : Int)) 3⟩,
   .addFunction 0 ⟨[2, 2], fun c => c.foldl (fun a l => a * 10 + (l : Int)) 4⟩,
   .addFactor 0 [0], .addFactor 1 [0, 1], .addFactor 2 [1, 2], .addFactor 3 [2, 3]]

theorem chainOps_valid : ValidHistory 1 Built.empty chainOps := by
  simp [chainOps, ValidHistory, BuildOp.Valid, BuildOp.apply, Built.empty, restrict]

/-- Fix two variables, free one of them, build; then unlock, fix another variable, and build both kinds of models. -/
def chainCalls : List FixOp :=
  [.fix 1 2, .fix 3 1, .free 3, .lock, .build, .fix 0 1, .unlock, .fix 1 2, .fix 0 1, .free 0, .buildSub, .build]

/-- All hypotheses hold for the chain, in both modes, and after the calls both kinds of models are built. -/
example : ∃ gm, BuiltModel gm (builtAfter chainOps).problem ∧ (∀ n ∈ (builtAfter chainOps).problem.numLabels, 0 < n) ∧
    ValidFixing (builtAfter chainOps).problem.numLabels (Fixing.init (builtAfter chainOps).problem.numLabels.length) chainCalls ∧
    (∀ t ∈ (builtAfter chainOps).problem.terms, t.vars ≠ []) ∧
    (fixingAfter (builtAfter chainOps).problem.numLabels.length chainCalls).fix = [none, some 2, none, none] ∧
    (fixingAfter (builtAfter chainOps).problem.numLabels.length chainCalls).built = true ∧
    (fixingAfter (builtAfter chainOps).problem.numLabels.length chainCalls).builtSub = true ∧ intAdd.IsCommMonoid := by
  obtain ⟨gm, hb⟩ := builtModel_exists chainOps_valid
  have hnl : (builtAfter chainOps).problem.numLabels = [2, 3, 2, 2] := by decide
  refine ⟨gm, hb, by rw [hnl]; decide, ?_, ?_, by rw [hnl]; decide, by rw [hnl]; decide, by rw [hnl]; decide, intAdd_comm⟩
  · rw [hnl]
    simp [chainCalls, ValidFixing, FixOp.Valid, FixOp.apply, Fixing.init]
  · simp [builtAfter, chainOps, Built.problem, BuildOp.apply, Built.empty]

/-- The model of one variable with one unary factor. -/
def oneGM : GM Int :=
  match (Client.init 1).run (fun _ _ => false) [.addVariable 2, .addFunction 0 ⟨[2], fun c => c.foldl (fun a l => a + (l : Int)) 0⟩, .addFactor 0 [0]] with
  | .ok _ c => c.gm
  | _ => GM.empty 1

/-- C28 is violated without `lock`: `buildModifiedModel` and `buildModifiedSubModels` lock the manipulator themselves, but read beyond the
end of a vector that only `lock` allocates. -/
theorem C28_nolock_violated : (run intAdd (construct oneGM .fix) [.build]).isNone = true ∧
    (run intAdd (construct oneGM .fix) [.buildSub]).isNone = true ∧ (run intAdd (construct oneGM .fix) [.lock, .build]).isSome = true := by
  decide

end Manipulator
end OpenGM
