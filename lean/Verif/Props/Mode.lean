import Verif.Lemmas.ModeLoop
import Verif.Props.MessagePassing
/-
C67: the labeling of belief propagation on acyclic models is optimal.
-/
namespace OpenGM
open Spec MessagePassing FactorOps Mode
variable {V : Type}

/-- The operations of belief propagation and those with which the labeling is read off fit together: the messages accumulate with the minimum of the order. -/
structure ModeSuitable (q : Ops V) (r : Rules V) (P : V → Prop) : Prop where
  suits : Suits q P
  operation : q.o = r.o
  accumulation : ∀ a b, r.accOp a b = minOp q.bop a b
  neutral : q.accNeutral = r.accNeutral

/-- What `marginal` and `factorMarginal` return in state `s`, as seen by `Inference`. -/
def baseOf (r : Rules V) (s : MP V) : Base V := ⟨s.gm, marginal r s, factorMarginal r s⟩

section
variable {q : Ops V} {r : Rules V} {P : V → Prop} {gm : GM V} {p : Problem V} {acyclic : Option Bool} {norm : Bool}

theorem exact_of_proportional (hq : ModeSuitable q r P) {a : Nat ⊕ Nat} {vs : List Nat} {ts : List (List Nat)} {out : List V} (hpr : Proportional r P norm p a vs ts out) :
    Exact q.o q.bop q.accNeutral P p vs ts out := by
  have hacc : r.accOp = minOp q.bop := by funext a b; exact hq.accumulation a b
  refine ⟨hpr.values, ?_⟩
  obtain ⟨c, pc, _, hs⟩ := hpr.scale
  refine ⟨c, pc, hpr.length, ?_⟩
  rw [hq.operation, ← hacc, hq.neutral]
  exact hs

/-- After `infer`, the marginals are those that the labeling needs. -/
theorem bp_setting (hq : ModeSuitable q r P) (h : BPSuitable r P gm p acyclic norm) {s : MP V} (hs : BPReachable r gm acyclic norm s) {visit : Nat → Bool} (hv : ∀ k, visit k = false) :
    ∃ s', infer r visit s = some (some s') ∧ s'.gm = gm ∧ Setting q P (baseOf r s') p := by
  have hr := h.built.represents
  obtain ⟨hI, hn, ha⟩ := bp_reachable hr h.positive hs
  obtain ⟨e, h1, h2, h3⟩ := bp_infer_ok hr (closed_exact (norm := norm) hr h.values h.laws h.divides h.positive h.forest) hI hn visit
  cases e with
  | none =>
    exfalso
    rcases h2 rfl with h' | ⟨h', h''⟩
    · rcases ha with ha | ha
      · exact h.claim (ha ▸ h')
      · rw [ha] at h'; simp at h'
    · exact h'' h.forest
  | some s' =>
    obtain ⟨g1, g2, g3, g4⟩ := h3 s' rfl
    obtain ⟨sV, sF, cV, cF, hJ⟩ := g4 hv
    refine ⟨s', h1, g1.model, ⟨by simp only [baseOf]; rw [g1.model]; exact hr, h.positive, h.forest, h.values, fun v hv => ?_, fun f t ht hne => ?_⟩⟩
    · obtain ⟨out, e1, e2⟩ := marginal_exact hr h.values h.laws h.divides h.positive h.forest h.range hJ hv
      exact ⟨out, e1, exact_of_proportional hq e2⟩
    · obtain ⟨out, e1, e2⟩ := factorMarginal_exact hr h.values h.laws h.divides h.positive h.forest h.range hJ ht hne
      exact ⟨out, e1, exact_of_proportional hq e2⟩

end

/-- C67. In every suitable model (C66) and for an accumulation that takes the better of two values: after an `infer` that no visitor stops, whatever the object has done before, `arg` returns a labeling,
and no labeling is better. Ties do not matter: the labels of different variables fit together. -/
theorem C67_arg_optimal (q : Ops V) (r : Rules V) (P : V → Prop) (gm : GM V) (p : Problem V) (acyclic : Option Bool) (norm : Bool) (hq : ModeSuitable q r P)
    (h : BPSuitable r P gm p acyclic norm) (s : MP V) (hs : BPReachable r gm acyclic norm s) (visit : Nat → Bool) (hv : ∀ k, visit k = false) :
    ∃ s' x, infer r visit s = some (some s') ∧ arg q r s' = some (x.map some) ∧ p.Optimum q.o q.bop x := by
  obtain ⟨s', h1, _, h3⟩ := bp_setting hq h hs hv
  obtain ⟨x, x1, x2⟩ := modeFromFactorMarginal_spec hq.suits h3
  exact ⟨s', x, h1, x1, x2⟩

/-- C67. The same for `constrainedOptimum` with given labels, if the variables with given labels are in different connected components of the model (for example, one variable): it returns a labeling
with these labels, and no labeling with these labels is better. (Not proved, and wrong, for more given labels in a component: `C67_violated_constrained`.) -/
theorem C67_constrained_partial (q : Ops V) (r : Rules V) (P : V → Prop) (gm : GM V) (p : Problem V) (acyclic : Option Bool) (norm : Bool) (hq : ModeSuitable q r P)
    (h : BPSuitable r P gm p acyclic norm) (s : MP V) (hs : BPReachable r gm acyclic norm s) (visit : Nat → Bool) (hv : ∀ k, visit k = false) (known : List (Nat × Nat))
    (hk : ∀ e ∈ known, e.1 < p.numLabels.length ∧ e.2 < p.numLabels.getD e.1 0)
    (ha : (known.map (fun e => e.1)).Pairwise (fun a b => ¬ (bipartite p.scopes).Reachable (.inl a) (.inl b))) :
    ∃ s' x, infer r visit s = some (some s') ∧ constrainedOptimum q (baseOf r s') known = some (x.map some) ∧
      p.Best q.o q.bop (fun x => ∀ e ∈ known, x.getD e.1 0 = e.2) x := by
  obtain ⟨s', h1, _, h3⟩ := bp_setting hq h hs hv
  obtain ⟨x, x1, x2⟩ := constrainedOptimum_apart hq.suits h3 (fun e he => (hk e he).1) (fun e he => (hk e he).2) ha
  exact ⟨s', x, h1, x1, x2⟩

/-- C67. `modeFromMarginal` after belief propagation: each label is that of its variable in an optimal labeling; the labels together are optimal if the optimum is unique. (Not with ties:
`C67_violated_ties`.) -/
theorem C67_modeFromMarginal_partial (q : Ops V) (r : Rules V) (P : V → Prop) (gm : GM V) (p : Problem V) (acyclic : Option Bool) (norm : Bool) (hq : ModeSuitable q r P)
    (h : BPSuitable r P gm p acyclic norm) (s : MP V) (hs : BPReachable r gm acyclic norm s) (visit : Nat → Bool) (hv : ∀ k, visit k = false) :
    ∃ s' x, infer r visit s = some (some s') ∧ modeFromMarginal q (baseOf r s') = some x ∧ x.length = p.numLabels.length ∧
      (∀ v, v < p.numLabels.length → ∃ y, p.Optimum q.o q.bop y ∧ y.getD v 0 = x.getD v 0) ∧
      ((∀ y z, p.Optimum q.o q.bop y → p.Optimum q.o q.bop z → y = z) → p.Optimum q.o q.bop x) := by
  obtain ⟨s', h1, _, h3⟩ := bp_setting hq h hs hv
  obtain ⟨x, x1, x2, x3⟩ := modeFromMarginal_spec hq.suits h3
  refine ⟨s', x, h1, x1, x2, x3, fun hu => ?_⟩
  obtain ⟨y, _, y2⟩ := modeFromFactorMarginal_spec hq.suits h3
  have : x = y := by
    apply List.ext_getElem (by rw [x2, y2.1.1])
    intro v hv1 hv2
    obtain ⟨z, z1, z2⟩ := x3 v (by omega)
    have := hu z y z1 y2
    subst this
    simpa [List.getD, hv1, hv2] using z2.symm
  exact this ▸ y2

/-! ### Instances -/

/-- Minimizer and Adder on integers, with infinity: two integers are closer than 0.00001 if they are equal. -/
def minMode : Ops (Option Int) := ⟨extAdd, extLt, none, some 0, some 1, fun a b => decide (a = b)⟩

theorem extLt_some (a b : Int) : extLt (some a) (some b) = decide (a < b) := rfl

theorem minMode_suits : Suits minMode (fun a => a.isSome) where
  ordered :=
    { order := ⟨by rintro (_ | a) <;> simp [minMode, extLt], by rintro (_ | a) (_ | b) (_ | c) <;> simp [minMode, extLt]; omega⟩
      total := by rintro (_ | a) (_ | b) <;> simp [minMode, extLt]; omega
      monoid := extAdd_comm
      value_neutral := rfl
      value_op := by rintro (_ | a) (_ | b) <;> simp [minMode, extAdd]
      keeps := by rintro (_ | a) (_ | b) (_ | c) <;> simp [minMode, extAdd, extLt] }
  neutral := by rintro (_ | a) <;> simp [minMode, extLt]
  beats := by rintro (_ | a) <;> simp [minMode, extLt]
  one := rfl
  near :=
    { refl := by simp [minMode]
      convex := by
        rintro (_ | a) (_ | b) (_ | v) <;> simp [minMode, extLt]
        intro h1 h2
        omega }

theorem minMode_suitable : ModeSuitable minMode minSum (fun a => a.isSome) where
  suits := minMode_suits
  operation := rfl
  accumulation := by
    rintro (_ | a) (_ | b) <;> simp [minSum, minMode, minOp, extLt]
    split <;> split <;> simp <;> omega
  neutral := rfl

/-- Minimizer and Adder on rational numbers, with infinity and with the test of the code: closer than 0.00001. -/
def ratMode : Ops (WithTop ℚ) :=
  ⟨⟨0, (· + ·)⟩, fun a b => decide (a < b), ⊤, 0, 1, fun a b => match a, b with | some a, some b => decide (|a - b| < 1 / 100000) | _, _ => false⟩

theorem ratMode_suits : Suits ratMode (fun a => a ≠ ⊤) where
  ordered :=
    { order := ⟨by simp [ratMode], by intro a b c; simpa [ratMode] using lt_trans⟩
      total := by intro a b h1 h2; simp [ratMode] at h1 h2; exact le_antisymm h2 h1
      monoid := ⟨fun a b => add_comm a b, fun a b c => add_assoc a b c, fun a => zero_add a⟩
      value_neutral := by simp [ratMode]
      value_op := by intro a b ha hb; simp [ratMode, ha, hb]
      keeps := by
        intro c a b hc ha hb h
        simp only [ratMode, decide_eq_true_eq] at h ⊢
        exact (WithTop.add_lt_add_iff_left hc).mpr h }
  neutral := by intro v; simp [ratMode]
  beats := by intro a ha; simp [ratMode, lt_top_iff_ne_top, ha]
  one := by simp [ratMode]
  near :=
    { refl := by
        intro a ha
        cases a with
        | top => exact absurd rfl ha
        | coe a => 
          show decide (|a - a| < 1 / 100000) = true
          simp
      convex := by
        intro a b v ha hb hv
        cases a with
        | top => exact absurd rfl ha
        | coe a =>
        cases b with
        | top => exact absurd rfl hb
        | coe b =>
        cases v with
        | top => exact absurd rfl hv
        | coe v =>
        show decide (|a - v| < 1 / 100000) = true → decide (|b - v| < 1 / 100000) = false → decide ((b : WithTop ℚ) < v) = true → decide ((b : WithTop ℚ) < a) = true
        simp only [decide_eq_true_eq, decide_eq_false_iff_not, WithTop.coe_lt_coe]
        intro h1 h2 h3
        rw [abs_lt] at h1
        rw [not_lt, abs_of_neg (by linarith)] at h2
        linarith [h1.1] }

/-- The hypotheses of C67 are met: a model with a chain of three variables, with and without normalisation. -/
example (norm : Bool) : ∃ gm s s' x, BPSuitable minSum (fun a => a.isSome) gm (builtAfter dpOps).problem none norm ∧ construct minSum gm none norm = some s ∧
    infer minSum (fun _ => false) s = some (some s') ∧ arg minMode minSum s' = some (x.map some) ∧ (builtAfter dpOps).problem.Optimum minMode.o minMode.bop x := by
  obtain ⟨gm, h⟩ := dpOps_bpSuitable norm
  obtain ⟨s, hs⟩ := (C66_defined minSum gm _ h.built h.positive none norm).1
  obtain ⟨s', x, h1, h2, h3⟩ := C67_arg_optimal minMode minSum _ gm _ none norm minMode_suitable h s (.construct hs) (fun _ => false) (fun _ => rfl)
  exact ⟨gm, s, s', x, h, hs, h1, h2, h3⟩

/-- A chain of three variables with two labels: neighbours should be equal, the first two more so. All labelings with equal labels are optimal. -/
def tieOps : List (BuildOp (Option Int)) :=
  [.addVariable 2, .addVariable 2, .addVariable 2, .addFunction 0 ⟨[2, 2], fun c => match c with | [a, b] => some (if a = b then 0 else 10) | _ => some 0⟩, .addFactor 0 [0, 1],
   .addFunction 0 ⟨[2, 2], fun c => match c with | [a, b] => some (if a = b then 0 else 5) | _ => some 0⟩, .addFactor 1 [1, 2]]

/-- The model that `ops` builds. -/
def tieModel (ops : List (BuildOp (Option Int))) : Option (GM (Option Int)) :=
  match (Client.init 1).run (fun _ _ => false) ops with
  | .ok () c => some c.gm
  | _ => none

/-- The state after `infer` on the model that `ops` builds. -/
def tieState (ops : List (BuildOp (Option Int))) : Option (MP (Option Int)) := ((tieModel ops).bind (construct minSum · none false)).bind (bpInfer minSum)

theorem tieOps_suitable : ∃ gm, tieModel tieOps = some gm ∧ BPSuitable minSum (fun a => a.isSome) gm (builtAfter tieOps).problem none false := by
  obtain ⟨c, h1⟩ : ∃ c, (Client.init 1).run (fun _ _ => false) tieOps = .ok () c := ⟨_, rfl⟩
  refine ⟨c.gm, by simp [tieModel, h1], ?_⟩
  cases h1
  have hs : EqvSound (V := Option Int) (fun _ _ => false) := by intro f g h; simp at h
  have hb : BuiltModel _ (builtAfter tieOps).problem := ⟨1, _, tieOps, _, hs, by
    simp [tieOps, ValidHistory, BuildOp.Valid, BuildOp.apply, Built.empty, restrict], rfl, rfl, rfl⟩
  refine ⟨hb, by decide, bp_forest hb rfl, minSum_laws, ?_, by simp, by simp⟩
  intro t ht c hc
  simp [builtAfter, tieOps, Built.problem, BuildOp.apply, Built.empty] at ht
  rcases ht with rfl | rfl
  · rcases c with _ | ⟨a, _ | ⟨b, _ | ⟨b', c⟩⟩⟩ <;> simp
  · rcases c with _ | ⟨a, _ | ⟨b, _ | ⟨b', c⟩⟩⟩ <;> simp

/-- The labeling with ties, and that with the label 1 given to the variable 2. -/
example : (tieState tieOps).bind (arg minMode minSum) = some [some 0, some 0, some 0] ∧
    (tieState tieOps).bind (fun s => constrainedOptimum minMode (baseOf minSum s) [(2, 1)]) = some [some 1, some 1, some 1] := by
  constructor <;> decide +kernel

/-- Given labels in different components: the hypothesis of `C67_constrained_partial` for one given label. -/
example : ([(2, 1)].map (fun e : Nat × Nat => e.1)).Pairwise (fun a b => ¬ (bipartite (builtAfter tieOps).problem.scopes).Reachable (.inl a) (.inl b)) := by simp

/-! ### Violations -/

/-- C67: with two given labels in a connected component, the labeling that `constrainedOptimum` returns is not optimal among those with these labels: each label that is not given is chosen
from a single factor and only sees the given labels of this factor. Here the variables 0 and 2 are given 0 and 1, the variable 1 gets 1 (objective 10), and 0 is better (objective 5). -/
theorem C67_violated_constrained : (tieState tieOps).bind (fun s => constrainedOptimum minMode (baseOf minSum s) [(0, 0), (2, 1)]) = some [some 0, some 1, some 1] ∧
    (builtAfter tieOps).problem.energy extAdd [0, 1, 1] = some 10 ∧ (builtAfter tieOps).problem.energy extAdd [0, 0, 1] = some 5 := by
  refine ⟨?_, ?_, ?_⟩ <;> decide +kernel

/-- Two variables with different labels. -/
def otherOps : List (BuildOp (Option Int)) :=
  [.addVariable 2, .addVariable 2, .addFunction 0 ⟨[2, 2], fun c => match c with | [a, b] => some (if a = b then 1 else 0) | _ => some 0⟩, .addFactor 0 [0, 1]]

/-- C67: with ties, the labels that `modeFromMarginal` takes from the marginals of the variables do not fit together, even on a tree: the two variables should have different labels, and both
get 0. `arg` (which does not use `modeFromMarginal`) returns different labels. -/
theorem C67_violated_ties : (tieState otherOps).bind (fun s => modeFromMarginal minMode (baseOf minSum s)) = some [0, 0] ∧ (tieState otherOps).bind (arg minMode minSum) = some [some 0, some 1] ∧
    (builtAfter otherOps).problem.energy extAdd [0, 0] = some 1 ∧ (builtAfter otherOps).problem.energy extAdd [0, 1] = some 0 := by
  refine ⟨?_, ?_, ?_, ?_⟩ <;> decide +kernel

end OpenGM
