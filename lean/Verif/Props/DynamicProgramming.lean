import Verif.Lemmas.DPArg
import Verif.Lemmas.FactorGraph
import Verif.Spec.Trees
import Verif.Props.Acyclic
import Verif.Props.GraphicalModel
import Verif.Props.Movemaker
/-
C29: the class DynamicProgramming.
-/
namespace OpenGM
open Spec
variable {V : Type}

/-- The DynamicProgramming objects that a program can have: the constructor (with roots that fit; the default parameter has
none), then any number of calls of `infer`. -/
inductive DpReachable (o : Operation V) (bop : V → V → Bool) (accNeutral : V) (gm : GM V) (p : Problem V) :
    DP.Solver V → Prop
  | construct {d} (roots : List Nat) : GoodRoots p roots → DP.construct gm roots = some d → DpReachable o bop accNeutral gm p d
  | infer {d d'} : DpReachable o bop accNeutral gm p d → DP.infer o bop accNeutral gm d = .ok () d' →
      DpReachable o bop accNeutral gm p d'

/-- What holds of every reachable object. -/
theorem DpReachable.shape {o : Operation V} (ho : o.IsCommMonoid) {bop : V → V → Bool} (hw : StrictWeak bop) (hrf : Reflects o bop)
    {accNeutral : V} {gm : GM V} {p : Problem V} (hb : BuiltModel gm p) (hpos : ∀ n ∈ p.numLabels, 0 < n)
    (hf : p.PairwiseForest) (hworst : WorseThanAll o bop accNeutral p) {d : DP.Solver V}
    (h : DpReachable o bop accNeutral gm p d) :
    DP.Shape p d ∧ (d.started = true → ∀ v, v < p.numLabels.length →
      ∃ msg st, DP.NodeDone o bop accNeutral p (DP.ordOf d.order) d.values d.states v msg st) := by
  have hset : DP.Setting o bop accNeutral p := ⟨ho, hw, hrf, hworst.unit, hworst.op, hworst.term, hpos⟩
  have hr := hb.represents
  induction h with
  | construct roots hroots e =>
    obtain ⟨d', e1, e2, e3, e4, e5, e6⟩ := DP.construct_spec hr hf.acyclic hf.order (roots := roots)
      ⟨hroots.range, hroots.apart, hroots.cover⟩
    rw [e] at e1
    cases e1
    exact ⟨DP.shape_of_construct hr hf.order e2 e4 e5 e6, by rw [e3]; simp⟩
  | infer _ e ih =>
    obtain ⟨d'', e1, e2, e3, e4⟩ := DP.infer_spec hset hr hf.order ih.1
    rw [e] at e1
    cases e1
    exact ⟨e2, fun _ => e4⟩

/-- C29 (partial): let the model be a forest of order at most two, and let combining with a value not create or hide strict
improvements (sums, maxima). Then the constructor succeeds; on every object `infer` terminates normally; and whenever `infer`
has been called (once or more), `arg` of the best solution reports success and returns a labeling of the model such that no
labeling of the model has a better value, `evaluate` being that value.
Missing: roots that leave out a tree of one of the first variables (`C29_violated_roots`), and values equal to the neutral
element of the accumulation, such as infinite costs (`C29_violated_infinite`). -/
theorem C29_dynamicProgramming_partial (o : Operation V) (ho : o.IsCommMonoid) (bop : V → V → Bool) (hw : StrictWeak bop)
    (hrf : Reflects o bop) (accNeutral : V) (gm : GM V) (p : Problem V) (hb : BuiltModel gm p) (hpos : ∀ n ∈ p.numLabels, 0 < n)
    (hf : p.PairwiseForest) (hworst : WorseThanAll o bop accNeutral p) :
    (∀ roots, GoodRoots p roots → ∃ d, DP.construct gm roots = some d) ∧
    (∀ d, DpReachable o bop accNeutral gm p d →
      ∃ d', DP.infer o bop accNeutral gm d = .ok () d' ∧
        ∃ y, DP.arg bop accNeutral gm d' 1 = some (true, y.map some) ∧ p.Labeling y ∧
          gm.evaluate o y = some (p.energy o y) ∧ ∀ x, p.Labeling x → bop (p.energy o x) (p.energy o y) = false) := by
  have hset : DP.Setting o bop accNeutral p := ⟨ho, hw, hrf, hworst.unit, hworst.op, hworst.term, hpos⟩
  have hr := hb.represents
  constructor
  · intro roots hroots
    obtain ⟨d, e, _⟩ := DP.construct_spec hr hf.acyclic hf.order (roots := roots) ⟨hroots.range, hroots.apart, hroots.cover⟩
    exact ⟨d, e⟩
  · intro d h
    obtain ⟨hs, _⟩ := h.shape ho hw hrf hb hpos hf hworst
    obtain ⟨d', e1, e2, e3, e4⟩ := DP.infer_spec hset hr hf.order hs
    obtain ⟨y, f1, f2, f3⟩ := DP.arg_spec hset hr hf.order e2 e3 e4 (Nat.le_refl 1)
    exact ⟨d', e1, y, f1, f2, evaluate_spec o hr.toStores y f2, f3⟩

/-- C29 (states): an object on which `infer` was never called, and a request for the second best or a later solution,
report UNKNOWN and return the zero labeling. -/
theorem C29_arg_unknown (bop : V → V → Bool) (accNeutral : V) (gm : GM V) (p : Problem V)
    (hb : BuiltModel gm p) (hf : p.PairwiseForest) (roots : List Nat) (hroots : GoodRoots p roots) (d : DP.Solver V)
    (h : DP.construct gm roots = some d) (n : Nat) :
    DP.arg bop accNeutral gm d n = some (false, (List.replicate p.numLabels.length 0).map some) ∧
    ∀ d' : DP.Solver V, 1 < n → DP.arg bop accNeutral gm d' n = some (false, (List.replicate p.numLabels.length 0).map some) := by
  have hr := hb.represents
  have hnv : gm.numberOfVariables = p.numLabels.length := by rw [GM.numberOfVariables, hr.labels]
  obtain ⟨d', e1, e2, e3, _⟩ := DP.construct_spec hr hf.acyclic hf.order (roots := roots) ⟨hroots.range, hroots.apart, hroots.cover⟩
  rw [h] at e1
  cases e1
  constructor
  · unfold DP.arg
    rw [e3, hnv]
    split <;> simp
  · intro d' hn
    unfold DP.arg
    rw [if_pos hn, hnv]
    simp

theorem foldl_max_le {l : List Nat} {a m : Nat} (ha : a ≤ m) (h : ∀ x ∈ l, x ≤ m) : l.foldl max a ≤ m := by
  induction l generalizing a with
  | nil => exact ha
  | cons b l ih =>
    exact ih (max_le ha (h b (by simp))) (fun x hx => h x (by simp [hx]))

/-- C29 with the library's own test: the assumption that the model is a forest is what `isAcyclic()` and `factorOrder()`
report. -/
theorem C29_isAcyclic (gm : GM V) (p : Problem V) (hb : BuiltModel gm p) :
    ∃ b, gm.factorGraph.isAcyclic = some b ∧ (p.PairwiseForest ↔ b = true ∧ gm.factorOrder ≤ 2) := by
  have hr := hb.represents
  obtain ⟨hex, hsc, _⟩ := factorGraph_exact hr
  obtain ⟨b, e1, e2⟩ := FG.C12_isAcyclic _ hex
  refine ⟨b, e1, ?_⟩
  rw [hsc] at e2
  have hord : gm.factorOrder ≤ 2 ↔ ∀ t ∈ p.terms, t.vars.length ≤ 2 := by
    rw [GM.factorOrder, hr.order]
    constructor
    · intro h t ht
      exact Nat.le_trans ((le_foldl_max _ _).2 _ (List.mem_map.mpr ⟨t, ht, rfl⟩)) h
    · intro h
      refine foldl_max_le (by omega) ?_
      intro x hx
      obtain ⟨t, ht, rfl⟩ := List.mem_map.mp hx
      exact h t ht
  rw [hord, e2]
  exact ⟨fun h => ⟨h.acyclic, h.order⟩, fun h => ⟨h.1, h.2⟩⟩

/-! ### The hypotheses are met -/

/-- Integers with a largest element `none`. -/
def extAdd : Operation (Option Int) := ⟨some 0, fun a b => match a, b with | some x, some y => some (x + y) | _, _ => none⟩

/-- Strictly smaller. -/
def extLt : Option Int → Option Int → Bool
  | some x, some y => decide (x < y)
  | some _, none => true
  | none, _ => false

theorem extAdd_comm : extAdd.IsCommMonoid := by
  refine ⟨?_, ?_, ?_⟩
  · rintro (_ | a) (_ | b) <;> simp [extAdd, Int.add_comm]
  · rintro (_ | a) (_ | b) (_ | c) <;> simp [extAdd, Int.add_assoc]
  · rintro (_ | a) <;> simp [extAdd]

theorem extLt_weak : StrictWeak extLt := by
  refine ⟨?_, ?_, ?_⟩
  · rintro (_ | a) <;> simp [extLt]
  · rintro (_ | a) (_ | b) (_ | c) <;> simp [extLt]; omega
  · rintro (_ | a) (_ | b) (_ | c) <;> simp [extLt]; omega

theorem extLt_reflects : Reflects extAdd extLt := by
  rintro (_ | r) (_ | a) (_ | b) <;> simp [extAdd, extLt]

/-- Four variables with 2, 3, 2 and 2 labels; the tree 1 - 0 - 2 and the single variable 3. -/
def dpOps : List (BuildOp (Option Int)) :=
  [.addVariable 2, .addVariable 3, .addVariable 2, .addVariable 2,
   .addFunction 0 ⟨[3], fun c => match c with | [a] => some (3 - a) | _ => some 0⟩, .addFactor 0 [1],
   .addFunction 0 ⟨[2, 3], fun c => match c with | [a, b] => some (if a = b then 0 else 2) | _ => some 0⟩, .addFactor 1 [0, 1],
   .addFunction 0 ⟨[2, 2], fun c => match c with | [a, b] => some (if a = b then 5 else 1) | _ => some 0⟩, .addFactor 2 [0, 2],
   .addFunction 0 ⟨[2], fun c => match c with | [a] => some (1 - a) | _ => some 0⟩, .addFactor 3 [3]]

theorem dpOps_valid : ValidHistory 1 Built.empty dpOps := by
  simp [dpOps, ValidHistory, BuildOp.Valid, BuildOp.apply, Built.empty, restrict]

example : ∃ gm, BuiltModel gm (builtAfter dpOps).problem ∧ (∀ n ∈ (builtAfter dpOps).problem.numLabels, 0 < n) ∧
    (builtAfter dpOps).problem.PairwiseForest ∧ WorseThanAll extAdd extLt none (builtAfter dpOps).problem ∧
    GoodRoots (builtAfter dpOps).problem [] ∧
    ∃ d d', DP.construct gm [] = some d ∧ DP.infer extAdd extLt none gm d = .ok () d' ∧
      DP.arg extLt none gm d' 1 = some (true, [some 1, some 1, some 0, some 1]) := by
  obtain ⟨c, h1⟩ : ∃ c, (Client.init 1).run (fun _ _ => false) dpOps = .ok () c := ⟨_, rfl⟩
  refine ⟨c.gm, ?_⟩
  cases h1
  have hs : EqvSound (V := Option Int) (fun _ _ => false) := by intro f g h; simp at h
  have hb : BuiltModel _ (builtAfter dpOps).problem := ⟨1, _, dpOps, _, hs, dpOps_valid, rfl, rfl, rfl⟩
  refine ⟨hb, by decide, ?_, ?_, goodRoots_nil _, _, _, rfl, rfl, rfl⟩
  · obtain ⟨b, e1, e2⟩ := C29_isAcyclic _ _ hb
    rw [e2]
    refine ⟨?_, by decide⟩
    have : b = true := by
      have h : some b = some true := by rw [← e1]; rfl
      exact Option.some.inj h
    exact this
  · refine ⟨rfl, ?_, ?_⟩
    · rintro (_ | a) (_ | b) <;> simp [extAdd, extLt]
    · intro t ht c hc
      simp [builtAfter, dpOps, Built.problem, BuildOp.apply, Built.empty] at ht
      rcases ht with rfl | rfl | rfl | rfl
      · rcases c with _ | ⟨a, _ | ⟨b, c⟩⟩ <;> simp [extLt]
      · rcases c with _ | ⟨a, _ | ⟨b, _ | ⟨b', c⟩⟩⟩ <;> simp [extLt]
      · rcases c with _ | ⟨a, _ | ⟨b, _ | ⟨b', c⟩⟩⟩ <;> simp [extLt]
      · rcases c with _ | ⟨a, _ | ⟨b, c⟩⟩ <;> simp [extLt]

/-! ### Violations -/

/-- Two variables without factors. -/
def dpTwo : List (BuildOp (Option Int)) := [.addVariable 2, .addVariable 2]

/-- C29 is violated when the parameter lists one root that is not in the tree of variable 0: variable 0 is never visited,
and the constructor writes beyond the end of an array. -/
theorem C29_violated_roots : ∃ gm, BuiltModel gm (builtAfter dpTwo).problem ∧ (builtAfter dpTwo).problem.PairwiseForest ∧
    DP.construct gm [1] = none := by
  obtain ⟨c, h1⟩ : ∃ c, (Client.init 1).run (fun _ _ => false) dpTwo = .ok () c := ⟨_, rfl⟩
  refine ⟨c.gm, ?_⟩
  cases h1
  have hs : EqvSound (V := Option Int) (fun _ _ => false) := by intro f g h; simp at h
  have hb : BuiltModel _ (builtAfter dpTwo).problem := ⟨1, _, dpTwo, _, hs, by
    simp [dpTwo, ValidHistory, BuildOp.Valid, BuildOp.apply, Built.empty], rfl, rfl, rfl⟩
  refine ⟨hb, ?_, rfl⟩
  obtain ⟨b, e1, e2⟩ := C29_isAcyclic _ _ hb
  rw [e2]
  refine ⟨?_, by decide⟩
  have h : some b = some true := by rw [← e1]; rfl
  exact Option.some.inj h

/-- Two variables; label 0 of the first variable is forbidden (infinite costs for all labels of the second one). -/
def dpInf : List (BuildOp (Option Int)) :=
  [.addVariable 2, .addVariable 2,
   .addFunction 0 ⟨[2, 2], fun c => match c with | [0, _] => none | _ => some 0⟩, .addFactor 0 [0, 1]]

/-- C29 is violated for infinite costs: if all labels of the second variable are infinitely bad for some label of the
first one, `infer` reads a variable that was never set, although labelings of value 0 exist. -/
theorem C29_violated_infinite : ∃ gm d, BuiltModel gm (builtAfter dpInf).problem ∧ (builtAfter dpInf).problem.PairwiseForest ∧
    DP.construct gm [] = some d ∧ DP.infer extAdd extLt none gm d = .ub ∧
    (builtAfter dpInf).problem.energy extAdd [1, 0] = some 0 := by
  obtain ⟨c, h1⟩ : ∃ c, (Client.init 1).run (fun _ _ => false) dpInf = .ok () c := ⟨_, rfl⟩
  refine ⟨c.gm, ?_⟩
  cases h1
  have hs : EqvSound (V := Option Int) (fun _ _ => false) := by intro f g h; simp at h
  have hb : BuiltModel _ (builtAfter dpInf).problem := ⟨1, _, dpInf, _, hs, by
    simp [dpInf, ValidHistory, BuildOp.Valid, BuildOp.apply, Built.empty, restrict], rfl, rfl, rfl⟩
  refine ⟨_, hb, ?_, rfl, rfl, rfl⟩
  obtain ⟨b, e1, e2⟩ := C29_isAcyclic _ _ hb
  rw [e2]
  refine ⟨?_, by decide⟩
  have h : some b = some true := by rw [← e1]; rfl
  exact Option.some.inj h

end OpenGM
