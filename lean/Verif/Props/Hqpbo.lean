import Verif.Lemmas.FixMove
import Verif.Lemmas.Built
/-
C72: HQPBO fixes labels of binary models of any order without making any labeling worse.
-/
namespace OpenGM
open Spec FixFusion
open Hoe (HOE QuadraticRep)
variable {V : Type} [CommRing V] [LinearOrder V] [IsStrictOrderedRing V]

/-- What is known of the external QPBO: the labels it gives are persistent for the quadratic function it gets. -/
def PersistentSolver (qpbo : QuadraticRep V → Nat → Int) : Prop := ∀ q : QuadraticRep V, PersistentFor q.unary q.pairwise (answer (qpbo q))

/-- The objects that a user can reach: constructor, setStartingPoint and infer, in any order. -/
inductive HqpboReachable (qpbo : QuadraticRep V → Nat → Int) (gm : GM V) (p : Problem V) : Hqpbo V → Prop
  | construct {a : Hqpbo V} (h : Hqpbo.construct gm = some a) : HqpboReachable qpbo gm p a
  | start {a a' : Hqpbo V} {y : List Nat} (ha : HqpboReachable qpbo gm p a) (hy : p.Labeling y) (h : a.setStartingPoint y = some a') : HqpboReachable qpbo gm p a'
  | infer {a a' : Hqpbo V} (ha : HqpboReachable qpbo gm p a) (h : Hqpbo.infer qpbo a = some a') : HqpboReachable qpbo gm p a'

/-- The labels 0 and 1. -/
def bitL (b : Bool) (_ : Nat) : Nat := if b then 1 else 0

theorem bitChoice {numLabels : List Nat} (h2 : ∀ n ∈ numLabels, n = 2) : LabelChoice numLabels bitLabel bitL := by
  refine ⟨fun b v n hn => ⟨rfl, ?_⟩⟩
  rw [h2 n (List.mem_of_getElem? hn)]
  cases b <;> simp [bitL]

/-- The bits of a binary labeling. -/
def bitsOfLabeling (y : List Nat) (v : Nat) : Bool := decide (y.getD v 0 = 1)

theorem labelsOf_bits {p : Problem V} (h2 : ∀ n ∈ p.numLabels, n = 2) {y : List Nat} (hy : p.Labeling y) : labelsOf p.numLabels.length bitL (bitsOfLabeling y) = y := by
  apply List.ext_getElem?
  intro v
  by_cases hv : v < p.numLabels.length
  · have hv' : v < y.length := by rw [hy.1]; exact hv
    rw [labelsOf_getElem? _ _ _ _ hv, List.getElem?_eq_getElem hv']
    have hlt := hy.2 v _ _ (List.getElem?_eq_getElem hv') (List.getElem?_eq_getElem hv)
    have he := h2 _ (List.getElem_mem hv)
    rw [he] at hlt
    simp only [bitL, bitsOfLabeling, List.getD_eq_getElem?_getD, List.getElem?_eq_getElem hv', Option.getD_some, decide_eq_true_eq]
    congr 1
    split <;> omega
  · rw [List.getElem?_eq_none (by rw [labelsOf_length]; omega), List.getElem?_eq_none (by rw [hy.1]; omega)]

/-- The labels that QPBO fixes. -/
def fixedBy (label : Nat → Int) (v : Nat) : Option Nat := (answer label v).map (fun b => if b then 1 else 0)

theorem readLabels_eq (label : Nat → Int) (y : List Nat) : readLabels label y = overwriteLabels (fixedBy label) y := by
  unfold readLabels overwriteLabels fixedBy answer
  apply List.ext_getElem?
  intro i
  rw [List.getElem?_mapIdx, List.getElem?_mapIdx]
  cases y[i]? with
  | none => rfl
  | some l =>
    simp only [Option.map_some]
    by_cases h0 : label i = 0
    · simp [h0]
    · by_cases h1 : label i = 1
      · simp [h1]
      · simp [h0, h1]

theorem overwriteLabels_bits {p : Problem V} (h2 : ∀ n ∈ p.numLabels, n = 2) {y : List Nat} (hy : p.Labeling y) (label : Nat → Int) :
    overwriteLabels (fixedBy label) y = labelsOf p.numLabels.length bitL (overwrite (answer label) (bitsOfLabeling y)) := by
  have hy0 := labelsOf_bits h2 hy
  apply List.ext_getElem?
  intro v
  unfold overwriteLabels
  rw [List.getElem?_mapIdx]
  by_cases hv : v < p.numLabels.length
  · rw [labelsOf_getElem? _ _ _ _ hv]
    have : y[v]? = some (bitL (bitsOfLabeling y v) v) := by
      conv_lhs => rw [← hy0]
      exact labelsOf_getElem? _ _ _ _ hv
    rw [this]
    simp only [Option.map_some, fixedBy, overwrite]
    cases answer label v with
    | none => rfl
    | some b => rfl
  · rw [List.getElem?_eq_none (by rw [hy.1]; omega), List.getElem?_eq_none (by rw [labelsOf_length]; omega)]
    rfl

/-- What holds of all reachable objects. -/
structure HqpboInv (gm : GM V) (p : Problem V) (ms : List (V × List Nat)) (a : Hqpbo V) : Prop where
  model : a.gm = gm
  used : HoeUsed 10 a.hoe gm.numLabels.length ms
  conf : p.Labeling a.conf

theorem constants_some {gm : GM V} {p : Problem V} (hs : Stores gm p) : ∀ {fs : List FactorRec} {ts : List (Term V)}, List.Forall₂ (FactorMatches gm) fs ts → ∀ c, ∃ c', constants gm fs c = some c' := by
  intro fs ts hfs
  induction hfs with
  | nil => intro c; exact ⟨c, rfl⟩
  | @cons f t fs ts hm _ ih =>
    intro c
    unfold constants
    split
    · rename_i h0
      have hn : t.vars = [] := List.length_eq_zero_iff.1 (by rw [← hm.visSize]; exact h0)
      obtain ⟨fn, h1, h2, h3⟩ := hm.fn
      have hsh : fn.shape = [] := by rw [h2, hn]; rfl
      have : ∃ e, gm.callFactor f [0] = some e := by
        simp only [GM.callFactor, h1, callFn, hsh]
        have := h3 [] (by rw [hsh]; trivial)
        simp at *
      obtain ⟨e, he⟩ := this
      rw [he]
      exact ih _
    · exact ih _

section
variable {gm : GM V} {p : Problem V} (hs : Stores gm p) (h2 : ∀ n ∈ p.numLabels, n = 2) (ho : ∀ t ∈ p.terms, t.vars.length ≤ 10)
include hs h2 ho

theorem hqpbo_construct : ∃ a ms, Hqpbo.construct gm = some a ∧ Move 10 gm p bitL ms ∧ HqpboInv gm p ms a ∧ a.conf = List.replicate p.numLabels.length 0 := by
  have hch : LabelChoice gm.numLabels bitLabel bitL := bitChoice (by rw [hs.labels]; exact h2)
  obtain ⟨h, ms, e1, hb, hm⟩ := move_spec (by omega) hs ho hch
  obtain ⟨c, e2⟩ := constants_some hs hs.factors 0
  have hn : gm.numberOfVariables = p.numLabels.length := by rw [← hs.labels]; rfl
  refine ⟨⟨gm, c, h, List.replicate gm.numberOfVariables 0⟩, ms, ?_, hm, ⟨rfl, .built hb, ?_⟩, ?_⟩
  · unfold Hqpbo.construct
    rw [e1, e2]
  · simp only [hn]
    exact AlphaExpansion.labeling_zero (by omega) h2
  · simp only [hn]

theorem hqpbo_infer {ms : List (V × List Nat)} (hm : Move 10 gm p bitL ms) {a : Hqpbo V} (hi : HqpboInv gm p ms a) {qpbo : QuadraticRep V → Nat → Int} (hq : PersistentSolver qpbo) :
    ∃ a' q, Hqpbo.infer qpbo a = some a' ∧ HqpboInv gm p ms a' ∧ a'.conf = overwriteLabels (fixedBy (qpbo q)) a.conf ∧
      ∀ y, p.Labeling y → p.Labeling (overwriteLabels (fixedBy (qpbo q)) y) ∧ p.energy (sumOp V) (overwriteLabels (fixedBy (qpbo q)) y) ≤ p.energy (sumOp V) y := by
  have hch : LabelChoice gm.numLabels bitLabel bitL := bitChoice (by rw [hs.labels]; exact h2)
  obtain ⟨h', q, e1, hu, hp⟩ := move_persistent (by omega) hm hi.used
  have hall : ∀ y, p.Labeling y → p.Labeling (overwriteLabels (fixedBy (qpbo q)) y) ∧ p.energy (sumOp V) (overwriteLabels (fixedBy (qpbo q)) y) ≤ p.energy (sumOp V) y := by
    intro y hy
    rw [overwriteLabels_bits h2 hy]
    have hx := hp (answer (qpbo q)) (hq q) (bitsOfLabeling y)
    have hl := labeling_labelsOf hs hch (overwrite (answer (qpbo q)) (bitsOfLabeling y))
    rw [hs.labels] at hx hl
    rw [labelsOf_bits h2 hy] at hx
    exact ⟨hl, hx⟩
  refine ⟨{ a with hoe := h', conf := readLabels (qpbo q) a.conf }, q, ?_, ⟨hi.model, hu, ?_⟩, readLabels_eq _ _, hall⟩
  · unfold Hqpbo.infer
    rw [e1]
  · simp only
    rw [readLabels_eq]
    exact (hall _ hi.conf).1

theorem HqpboReachable.inv {qpbo : QuadraticRep V → Nat → Int} (hq : PersistentSolver qpbo) {a : Hqpbo V} (hr : HqpboReachable qpbo gm p a) : ∃ ms, Move 10 gm p bitL ms ∧ HqpboInv gm p ms a := by
  induction hr with
  | construct h =>
    obtain ⟨a, ms, e, hm, hi, _⟩ := hqpbo_construct hs h2 ho
    rw [e] at h; cases h
    exact ⟨ms, hm, hi⟩
  | @start a a' y ha hy h ih =>
    obtain ⟨ms, hm, hi⟩ := ih
    unfold Hqpbo.setStartingPoint at h
    split at h
    · cases h
      refine ⟨ms, hm, hi.model, hi.used, ?_⟩
      have hn : a.gm.numberOfVariables = p.numLabels.length := by rw [hi.model, ← hs.labels]; rfl
      simp only [hn, ← hy.1, List.take_length]
      exact hy
    · cases h
  | infer ha h ih =>
    obtain ⟨ms, hm, hi⟩ := ih
    obtain ⟨a', q, e, hi', _⟩ := hqpbo_infer hs h2 ho hm hi hq
    rw [e] at h; cases h
    exact ⟨ms, hm, hi'⟩
end

/-- C72: the constructor accepts every model with two labels per variable and factors of order at most 10; arg() is then the labeling 0. A labeling can be set as starting point. -/
theorem C72_construct (gm : GM V) (p : Problem V) (hb : BuiltModel gm p) (h2 : ∀ n ∈ p.numLabels, n = 2) (ho : ∀ t ∈ p.terms, t.vars.length ≤ 10) :
    (∃ a, Hqpbo.construct gm = some a ∧ a.arg = List.replicate p.numLabels.length 0) ∧
    ∀ (qpbo : QuadraticRep V → Nat → Int), PersistentSolver qpbo → ∀ a, HqpboReachable qpbo gm p a → ∀ y, p.Labeling y → ∃ a', a.setStartingPoint y = some a' ∧ a'.arg = y := by
  have hs := hb.represents.toStores
  constructor
  · obtain ⟨a, ms, e, _, _, h⟩ := hqpbo_construct hs h2 ho
    exact ⟨a, e, h⟩
  · intro qpbo hq a ha y hy
    obtain ⟨ms, hm, hi⟩ := ha.inv hs h2 ho hq
    have hn : a.gm.numberOfVariables = p.numLabels.length := by rw [hi.model, ← hs.labels]; rfl
    refine ⟨{ a with conf := y }, ?_, rfl⟩
    unfold Hqpbo.setStartingPoint
    rw [if_pos (by rw [hn, hy.1])]
    simp only [hn, ← hy.1, List.take_length]

/-- C72: infer ends without an access out of range, whatever was called before. It overwrites the current labeling with the labels that QPBO fixes; overwriting any labeling with them gives a labeling
that is not worse. So the result is not worse than the starting point, and if QPBO fixes all labels, no labeling is better than it. -/
theorem C72_infer (gm : GM V) (p : Problem V) (hb : BuiltModel gm p) (h2 : ∀ n ∈ p.numLabels, n = 2) (ho : ∀ t ∈ p.terms, t.vars.length ≤ 10)
    (qpbo : QuadraticRep V → Nat → Int) (hq : PersistentSolver qpbo) (a : Hqpbo V) (ha : HqpboReachable qpbo gm p a) :
    ∃ a' q fixed, Hqpbo.infer qpbo a = some a' ∧
      (∀ v, fixed v = if qpbo q v = 0 then some 0 else if qpbo q v = 1 then some 1 else none) ∧
      a'.arg = overwriteLabels fixed a.arg ∧
      (∀ y, p.Labeling y → p.Labeling (overwriteLabels fixed y) ∧ p.energy (sumOp V) (overwriteLabels fixed y) ≤ p.energy (sumOp V) y) ∧
      p.Labeling a'.arg ∧ p.energy (sumOp V) a'.arg ≤ p.energy (sumOp V) a.arg ∧
      ((∀ v, v < p.numLabels.length → (fixed v).isSome) → ∀ y, p.Labeling y → p.energy (sumOp V) a'.arg ≤ p.energy (sumOp V) y) := by
  have hs := hb.represents.toStores
  obtain ⟨ms, hm, hi⟩ := ha.inv hs h2 ho hq
  obtain ⟨a', q, e1, hi', e2, e3⟩ := hqpbo_infer hs h2 ho hm hi hq
  refine ⟨a', q, fixedBy (qpbo q), e1, fun v => ?_, e2, e3, hi'.conf, ?_, fun hall y hy => ?_⟩
  · unfold fixedBy answer
    by_cases h0 : qpbo q v = 0
    · simp [h0]
    · by_cases h1 : qpbo q v = 1
      · simp [h1]
      · simp [h0, h1]
  · show p.energy (sumOp V) a'.conf ≤ p.energy (sumOp V) a.conf
    rw [e2]
    exact (e3 _ hi.conf).2
  · have hsame : overwriteLabels (fixedBy (qpbo q)) a.conf = overwriteLabels (fixedBy (qpbo q)) y := by
      apply List.ext_getElem?
      intro v
      unfold overwriteLabels
      rw [List.getElem?_mapIdx, List.getElem?_mapIdx]
      by_cases hv : v < p.numLabels.length
      · rw [List.getElem?_eq_getElem (by rw [hi.conf.1]; exact hv), List.getElem?_eq_getElem (by rw [hy.1]; exact hv)]
        obtain ⟨l, hl⟩ := Option.isSome_iff_exists.1 (hall v hv)
        simp [hl]
      · rw [List.getElem?_eq_none (by rw [hi.conf.1]; omega), List.getElem?_eq_none (by rw [hy.1]; omega)]
    show p.energy (sumOp V) a'.conf ≤ _
    rw [e2, hsame]
    exact (e3 y hy).2

/-! ### Examples and disagreements -/

/-- Three binary variables, a unary factor and a factor of order three that is -4 for the labels 1, 1, 0. -/
def hqpboOps : List (BuildOp Int) :=
  [.addVariable 2, .addVariable 2, .addVariable 2,
   .addFunction 0 ⟨[2], fun c => if c = [1] then 3 else 0⟩,
   .addFunction 0 ⟨[2, 2, 2], fun c => if c = [1, 1, 0] then -4 else 0⟩,
   .addFactor 0 [0], .addFactor 1 [0, 1, 2]]

theorem hqpboOps_valid : ValidHistory 1 Built.empty hqpboOps := by
  simp [hqpboOps, ValidHistory, BuildOp.Valid, BuildOp.apply, Built.empty, restrict]

/-- The hypotheses of `C72_construct` and `C72_infer` are met by this model with a solver that labels everything; then the result is an optimal labeling, also in a second call. -/
example : ∃ gm a a1 a2, BuiltModel gm (builtAfter hqpboOps).problem ∧ Hqpbo.construct gm = some a ∧ Hqpbo.infer exactQpbo a = some a1 ∧ Hqpbo.infer exactQpbo a1 = some a2 ∧
    (builtAfter hqpboOps).problem.energy (sumOp Int) a2.arg ≤ (builtAfter hqpboOps).problem.energy (sumOp Int) [1, 1, 0] ∧ (builtAfter hqpboOps).problem.energy (sumOp Int) [1, 1, 0] = -1 := by
  obtain ⟨gm, hb⟩ := builtModel_exists hqpboOps_valid
  have h2 : ∀ n ∈ (builtAfter hqpboOps).problem.numLabels, n = 2 := by decide
  have ho : ∀ t ∈ (builtAfter hqpboOps).problem.terms, t.vars.length ≤ 10 := by
    intro t ht
    simp [builtAfter, hqpboOps, BuildOp.apply, Built.empty, Built.problem] at ht
    rcases ht with rfl | rfl <;> simp
  have hq : PersistentSolver (exactQpbo (V := Int)) := exactQpbo_persistent
  obtain ⟨⟨a, e, _⟩, _⟩ := C72_construct gm _ hb h2 ho
  have r0 : HqpboReachable exactQpbo gm _ a := .construct (p := (builtAfter hqpboOps).problem) e
  obtain ⟨a1, _, _, e1, _⟩ := C72_infer gm _ hb h2 ho _ hq a r0
  have r1 := HqpboReachable.infer r0 e1
  obtain ⟨a2, q, fixed, e2, hf, _, _, _, _, hopt⟩ := C72_infer gm _ hb h2 ho _ hq a1 r1
  refine ⟨gm, a, a1, a2, hb, e, e1, e2, ?_, by decide⟩
  apply hopt
  · intro v _
    rw [hf v]
    unfold exactQpbo
    split <;> rfl
  · exact ⟨by decide, by intro v l n hl hn; have := h2 n (List.mem_of_getElem? hn); have := List.mem_of_getElem? hl; simp at this; omega⟩

/-- One variable with three labels and the values 1, 1, 0. -/
def threeOps : List (BuildOp Int) := [.addVariable 3, .addFunction 0 ⟨[3], fun c => if c = [2] then 0 else 1⟩, .addFactor 0 [0]]

/-- One variable with one label. -/
def oneOps : List (BuildOp Int) := [.addVariable 1, .addFunction 0 ⟨[1], fun _ => 1⟩, .addFactor 0 [0]]

/-- A factor of order 11. -/
def elevenOps : List (BuildOp Int) := List.replicate 11 (.addVariable 2) ++ [.addFunction 0 ⟨List.replicate 11 2, fun _ => 1⟩, .addFactor 0 (List.range 11)]

/-- C72 (violated): HQPBO accepts variables with more than two labels, but only considers the labels 0 and 1: for one variable with the values 1, 1, 0 the best label 2 is never found,
whatever QPBO does. -/
theorem C72_violated_labels : ∃ (gm : GM Int) (p : Problem Int), BuiltModel gm p ∧ p.numLabels = [3] ∧ p.energy (sumOp Int) [2] = 0 ∧ ∀ qpbo : QuadraticRep Int → Nat → Int,
    ∃ a a', Hqpbo.construct gm = some a ∧ Hqpbo.infer qpbo a = some a' ∧ p.energy (sumOp Int) a'.arg = 1 := by
  obtain ⟨c, h1⟩ : ∃ c, (Client.init 1).run (fun _ _ => false) threeOps = .ok () c := ⟨_, rfl⟩
  refine ⟨c.gm, (builtAfter threeOps).problem, ⟨1, _, threeOps, c, eqvSound_false, ?_, h1, rfl, rfl⟩, rfl, rfl, fun qpbo => ?_⟩
  · simp [threeOps, ValidHistory, BuildOp.Valid, BuildOp.apply, Built.empty, restrict]
  · obtain ⟨a, e, hc, r, er⟩ : ∃ a, Hqpbo.construct c.gm = some a ∧ a.conf = [0] ∧ ∃ r, Hoe.toQuadratic 10 a.hoe QuadraticRep.empty = some r := by
      cases h1
      exact ⟨_, rfl, rfl, _, rfl⟩
    refine ⟨a, { a with hoe := r.1, conf := readLabels (qpbo r.2) a.conf }, e, ?_, ?_⟩
    · unfold Hqpbo.infer
      rw [er]
    · show Problem.energy (sumOp Int) _ (readLabels (qpbo r.2) a.conf) = 1
      rw [hc]
      simp only [readLabels, List.mapIdx_cons, List.mapIdx_nil]
      split
      · rfl
      · split <;> rfl

/-- C72 (violated): for a variable with a single label the constructor reads the value of the label 1, which does not exist. -/
theorem C72_violated_oneLabel : ∃ (gm : GM Int) (p : Problem Int), BuiltModel gm p ∧ p.numLabels = [1] ∧ (Hqpbo.construct gm).isNone = true := by
  obtain ⟨c, h1⟩ : ∃ c, (Client.init 1).run (fun _ _ => false) oneOps = .ok () c := ⟨_, rfl⟩
  refine ⟨c.gm, (builtAfter oneOps).problem, ⟨1, _, oneOps, c, eqvSound_false, ?_, h1, rfl, rfl⟩, rfl, ?_⟩
  · simp [oneOps, ValidHistory, BuildOp.Valid, BuildOp.apply, Built.empty, restrict]
  · cases h1
    decide

/-- C72 (violated): the constructor accepts a factor of order 11 and writes behind the end of its array of 10 variables. -/
theorem C72_violated_order : ∃ (gm : GM Int) (p : Problem Int), BuiltModel gm p ∧ (∀ n ∈ p.numLabels, n = 2) ∧ (Hqpbo.construct gm).isNone = true := by
  obtain ⟨c, h1⟩ : ∃ c, (Client.init 1).run (fun _ _ => false) elevenOps = .ok () c := ⟨_, rfl⟩
  refine ⟨c.gm, (builtAfter elevenOps).problem, ⟨1, _, elevenOps, c, eqvSound_false, ?_, h1, rfl, rfl⟩, by decide, ?_⟩
  · simp [elevenOps, ValidHistory, BuildOp.Valid, BuildOp.apply, Built.empty, restrict, List.replicate, List.range, List.range.loop]
  · cases h1
    decide +kernel

end OpenGM
