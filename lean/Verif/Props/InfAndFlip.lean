import Verif.Model.InfAndFlip
import Verif.Props.LazyFlipper
/-
C69: InfAndFlip.
-/
namespace OpenGM
open Spec LazyFlip
variable {V : Type}

/-- The objects that a client can have: constructed for `gm`, with any parameters, then any calls of `setStartingPoint`, `reset`, and `infer` with any algorithm INF and any visitor. -/
inductive FlipReachable (o : InvOperation V) (multiplier : Bool) (bop : V → V → Bool) (reevaluate : V → Bool) (gm : GM V) (p : Problem V) : InfAndFlip.IAF V → Prop
  | construct {accNeutral accINeutral : V} {maxSize : Nat} {warm : Bool} {s : InfAndFlip.IAF V} (h : InfAndFlip.construct accNeutral accINeutral gm maxSize warm = .ok s ()) :
      FlipReachable o multiplier bop reevaluate gm p s
  | start {s s' : InfAndFlip.IAF V} (sp : List Nat) (hsp : p.Labeling sp) (h : FlipReachable o multiplier bop reevaluate gm p s)
      (e : InfAndFlip.setStartingPoint o.toOperation s sp = some s') : FlipReachable o multiplier bop reevaluate gm p s'
  | reset {s : InfAndFlip.IAF V} (h : FlipReachable o multiplier bop reevaluate gm p s) : FlipReachable o multiplier bop reevaluate gm p (InfAndFlip.reset s)
  | infer {s s' : InfAndFlip.IAF V} (inf : Option (List Nat) → List Nat × V) (hinf : ∀ a, p.Labeling (inf a).1) (visit : Nat → Bool) (stop : Bool)
      (h : FlipReachable o multiplier bop reevaluate gm p s) (e : InfAndFlip.infer ⟨o, multiplier, bop, reevaluate, visit⟩ inf stop s = .ok s' ()) :
      FlipReachable o multiplier bop reevaluate gm p s'

/-- What INF is started from: the starting point, if there is one and the parameter `warmStartableInf_` says so. -/
def infStart (s : InfAndFlip.IAF V) : Option (List Nat) := if s.warm = true ∧ s.sp ≠ [] then some s.sp else none

namespace InfAndFlip
variable {o : InvOperation V} {multiplier : Bool} {bop : V → V → Bool} {reevaluate : V → Bool} {gm : GM V} {p : Problem V}

/-- The starting point of an object, if it has been set. -/
structure Ready (o : InvOperation V) (gm : GM V) (p : Problem V) (s : IAF V) : Prop where
  gm : s.gm = gm
  start : (s.sp = [] ∧ s.spValue = none) ∨ (p.Labeling s.sp ∧ s.spValue = some (p.energy o.toOperation s.sp))

theorem infStart_eq (s : IAF V) : (if s.warm && s.sp.length ≠ 0 then some s.sp else none) = infStart s := by
  unfold infStart
  simp

/-- The whole call. -/
theorem infer_all (hsuit : LazySuitable o multiplier bop reevaluate p none) (hcomp : Comparable bop) (hb : BuiltModel gm p) (hn : p.numLabels ≠ []) {s : IAF V} (h : Ready o gm p s)
    {inf : Option (List Nat) → List Nat × V} (hinf : ∀ a, p.Labeling (inf a).1) (visit : Nat → Bool) (stop : Bool) :
    ∃ s' x b, inf (if s.warm && s.sp.length ≠ 0 then some s.sp else none) = (x, b) ∧ infer ⟨o, multiplier, bop, reevaluate, visit⟩ inf stop s = .ok s' () ∧ Ready o gm p s' ∧
      p.Labeling s'.state ∧ s'.value = p.energy o.toOperation s'.state ∧ s'.bound = b ∧ s'.maxSize = s.maxSize ∧ s'.sp = s.sp ∧
      ((stop = true ∨ s.maxSize = 0) → s'.state = x) ∧
      (stop = false → 0 < s.maxSize → (∃ z, (z = x ∨ z = s.sp ∧ s.sp ≠ []) ∧ (s'.state = z ∨ bop (p.energy o.toOperation s'.state) (p.energy o.toOperation z) = true) ∧
          bop (p.energy o.toOperation x) (p.energy o.toOperation z) = false ∧ (s.sp ≠ [] → bop (p.energy o.toOperation s.sp) (p.energy o.toOperation z) = false)) ∧
        ∀ y, p.Labeling y → distance s'.state y ≤ s.maxSize → bop (p.energy o.toOperation y) (p.energy o.toOperation s'.state) = false) := by
  have hst := hb.represents.toStores
  have hnv : gm.numberOfVariables = p.numLabels.length := by rw [GM.numberOfVariables, hst.labels]
  have hpos : ∀ k ∈ p.numLabels, 0 < k := fun k hk => by have := hsuit.two k hk; omega
  have hlen : p.numLabels.length ≠ 0 := by simpa using hn
  obtain ⟨lf, l1, l2, l3, l4⟩ := C49_construct (o := o) (multi := none) hb hpos hn 2 (by omega) [] (.inr (by simp only [List.length_nil]; omega))
  cases hr : inf (if s.warm && s.sp.length ≠ 0 then some s.sp else none) with
  | mk x b =>
  have hx : p.Labeling x := by
    have := hinf (if s.warm && s.sp.length ≠ 0 then some s.sp else none)
    rw [hr] at this
    exact this
  have hev := evaluate_spec o.toOperation hst x hx
  unfold infer
  simp only
  rw [h.gm, l1]
  simp only
  rw [hr]
  simp only
  rw [hev]
  simp only
  cases stop with
  | true =>
    simp only [if_true]
    exact ⟨_, x, b, rfl, rfl, ⟨rfl, h.start⟩, hx, rfl, rfl, rfl, rfl, fun _ => rfl, by simp⟩
  | false =>
    simp only [Bool.false_eq_true, if_false]
    by_cases hm : s.maxSize > 0
    · rw [if_pos hm]
      -- the starting point
      obtain ⟨z, z1, z2, z3, z4, z5⟩ : ∃ z, flipStart bop { s with gm := gm, state := x, value := p.energy o.toOperation x, bound := b } = some z ∧ p.Labeling z ∧ (z = x ∨ z = s.sp ∧ s.sp ≠ []) ∧
          bop (p.energy o.toOperation x) (p.energy o.toOperation z) = false ∧ (s.sp ≠ [] → bop (p.energy o.toOperation s.sp) (p.energy o.toOperation z) = false) := by
        unfold flipStart
        simp only
        rcases h.start with ⟨h1, h2⟩ | ⟨h1, h2⟩
        · rw [if_pos (by rw [h1, hnv]; simp only [List.length_nil]; omega)]
          exact ⟨x, rfl, hx, Or.inl rfl, hsuit.context.order.irrefl _, fun hne => absurd h1 hne⟩
        · rw [if_neg (by rw [h1.1, hnv]; simp), h2]
          simp only
          by_cases hbo : bop (p.energy o.toOperation x) (p.energy o.toOperation s.sp) = true
          · rw [if_pos hbo]
            refine ⟨x, rfl, hx, Or.inl rfl, hsuit.context.order.irrefl _, fun _ => ?_⟩
            by_contra hn'
            rw [Bool.not_eq_false] at hn'
            have := hsuit.context.order.trans _ _ _ hbo hn'
            rw [hsuit.context.order.irrefl] at this
            cases this
          · rw [if_neg hbo]
            refine ⟨s.sp, rfl, h1, Or.inr ⟨rfl, ?_⟩, by simpa using hbo, fun _ => hsuit.context.order.irrefl _⟩
            intro hnil
            have := h1.1
            rw [hnil] at this
            simp only [List.length_nil] at this
            omega
      obtain ⟨lf1, a1, a2, _, _⟩ := (C49_setters hsuit hb hn lf (.fresh l2)).2.1 s.maxSize hm
      have f1 : LazyFresh o gm p none lf1 := .size _ l2 a1
      obtain ⟨lf2, b1, b2, b3⟩ := (C49_setters hsuit hb hn lf1 (.fresh f1)).1 z z2
      have f2 : LazyFresh o gm p none lf2 := .start z f1 z2 b1
      obtain ⟨lf3, x3, y3, c1, _, c3, c4, c5, c6, c7, c8⟩ := C49_infer_partial hsuit hb hn (fun _ => false) lf2 (.fresh f2)
      obtain ⟨lf3', y3', d1, d2, d3, d4⟩ := C49_optimal_partial hsuit hcomp hb hn lf2 f2
      rw [c1] at d1
      cases d1
      rw [c5] at d2
      cases d2
      rw [b2] at c3
      cases c3
      have ev3 := evaluate_spec o.toOperation hst y3 c6
      have hv3 : value lf3 = p.energy o.toOperation y3 := by rw [ev3] at c7; exact (Option.some.inj c7).symm
      have hv2 : value lf2 = p.energy o.toOperation z := by rw [evaluate_spec o.toOperation hst z z2] at c4; exact (Option.some.inj c4).symm
      have z1' : flipStart bop { gm := gm, maxSize := s.maxSize, warm := s.warm, state := x, value := p.energy o.toOperation x, bound := b, spValue := s.spValue, sp := s.sp } = some z := z1
      rw [a1, z1']
      simp only
      rw [b1]
      simp only
      rw [c1]
      simp only
      rw [c5]
      simp only
      rw [ev3]
      simp only
      refine ⟨_, x, b, rfl, rfl, ⟨rfl, h.start⟩, c6, rfl, rfl, rfl, rfl, by rintro (h | h); (· simp at h); (· omega), fun _ _ => ⟨⟨z, z3, ?_, z4, z5⟩, ?_⟩⟩
      · rw [hv3, hv2] at c8
        exact c8
      · intro y hy hd
        refine d4 y hy ?_
        rw [b3, a2]
        exact hd
    · rw [if_neg hm]
      exact ⟨_, x, b, rfl, rfl, ⟨rfl, h.start⟩, hx, rfl, rfl, rfl, rfl, fun _ => rfl, fun _ hm' => absurd hm' hm⟩

theorem ready_of_reachable (hsuit : LazySuitable o multiplier bop reevaluate p none) (hcomp : Comparable bop) (hb : BuiltModel gm p) (hn : p.numLabels ≠ []) {s : IAF V}
    (h : FlipReachable o multiplier bop reevaluate gm p s) : Ready o gm p s := by
  induction h with
  | construct h =>
    unfold construct at h
    split at h
    · simp at h
    · obtain rfl := (Outcome.ok.inj h).1
      exact ⟨rfl, Or.inl ⟨rfl, rfl⟩⟩
  | start sp hsp h e ih =>
    have hst := hb.represents.toStores
    unfold setStartingPoint at e
    rw [ih.gm] at e
    split at e
    · simp at e
    · rw [evaluate_spec o.toOperation hst sp hsp] at e
      obtain rfl := Option.some.inj e
      exact ⟨rfl, Or.inr ⟨hsp, rfl⟩⟩
  | reset h ih => exact ih
  | infer inf hinf visit stop h e ih =>
    obtain ⟨s', x, b, _, e2, e3, _⟩ := infer_all hsuit hcomp hb hn ih hinf visit stop
    rw [e] at e2
    obtain rfl := (Outcome.ok.inj e2).1
    exact e3

end InfAndFlip

section
variable {o : InvOperation V} {multiplier : Bool} {bop : V → V → Bool} {reevaluate : V → Bool} {gm : GM V} {p : Problem V}

/-- C69. For every algorithm INF that returns a labeling, on every reachable object and with every visitor, `infer` ends, and then `arg()` is a labeling, `value()` is its objective,
and `bound()` is the bound of INF. (Models with at least two labels for each variable, as in C49.) -/
theorem C69_infer_partial (hsuit : LazySuitable o multiplier bop reevaluate p none) (hcomp : Comparable bop) (hb : BuiltModel gm p) (hn : p.numLabels ≠ [])
    (s : InfAndFlip.IAF V) (h : FlipReachable o multiplier bop reevaluate gm p s) (inf : Option (List Nat) → List Nat × V) (hinf : ∀ a, p.Labeling (inf a).1) (visit : Nat → Bool) (stop : Bool) :
    ∃ s' y, InfAndFlip.infer ⟨o, multiplier, bop, reevaluate, visit⟩ inf stop s = .ok s' () ∧ InfAndFlip.arg s' = some y ∧ p.Labeling y ∧ s'.value = p.energy o.toOperation y ∧
      s'.bound = (inf (infStart s)).2 ∧ (stop = true ∨ s.maxSize = 0 → y = (inf (infStart s)).1) := by
  have hst := hb.represents.toStores
  obtain ⟨s', x, b, h1, h2, h3, h4, h5, h6, _, _, h9, _⟩ := InfAndFlip.infer_all hsuit hcomp hb hn (InfAndFlip.ready_of_reachable hsuit hcomp hb hn h) hinf visit stop
  rw [InfAndFlip.infStart_eq] at h1
  refine ⟨s', s'.state, h2, ?_, h4, h5, ?_, ?_⟩
  · unfold InfAndFlip.arg
    rw [h3.gm, GM.numberOfVariables, hst.labels, ← h4.1]
    exact LazyFlip.mapM_range_get _
  · rw [h6, h1]
  · rw [h1]; exact h9

/-- C69. If the visitor does not stop and `maxSubgraphSize_` is positive, on every reachable object, also after earlier calls: the labeling is not worse than that of INF, not worse than the starting
point (if there is one), and no labeling that differs from it on at most `maxSubgraphSize_` variables is better. -/
theorem C69_flipped_partial (hsuit : LazySuitable o multiplier bop reevaluate p none) (hcomp : Comparable bop) (hb : BuiltModel gm p) (hn : p.numLabels ≠ [])
    (s : InfAndFlip.IAF V) (h : FlipReachable o multiplier bop reevaluate gm p s) (inf : Option (List Nat) → List Nat × V) (hinf : ∀ a, p.Labeling (inf a).1) (visit : Nat → Bool)
    (hm : 0 < s.maxSize) :
    ∃ s' y, InfAndFlip.infer ⟨o, multiplier, bop, reevaluate, visit⟩ inf false s = .ok s' () ∧ InfAndFlip.arg s' = some y ∧
      bop (p.energy o.toOperation (inf (infStart s)).1) (p.energy o.toOperation y) = false ∧
      (s.sp ≠ [] → bop (p.energy o.toOperation s.sp) (p.energy o.toOperation y) = false) ∧
      ∀ z, p.Labeling z → distance y z ≤ s.maxSize → bop (p.energy o.toOperation z) (p.energy o.toOperation y) = false := by
  have hst := hb.represents.toStores
  obtain ⟨s', x, b, h1, h2, h3, h4, h5, h6, _, _, _, h10⟩ := InfAndFlip.infer_all hsuit hcomp hb hn (InfAndFlip.ready_of_reachable hsuit hcomp hb hn h) hinf visit false
  obtain ⟨⟨z, z1, z2, z3, z4⟩, hopt⟩ := h10 rfl hm
  have hle : ∀ a, bop a (p.energy o.toOperation z) = false → bop a (p.energy o.toOperation s'.state) = false := by
    intro a ha
    rcases z2 with e | hbo
    · rw [e]; exact ha
    · by_contra hn'
      rw [Bool.not_eq_false] at hn'
      rw [hsuit.context.order.trans _ _ _ hn' hbo] at ha
      cases ha
  rw [InfAndFlip.infStart_eq] at h1
  refine ⟨s', s'.state, h2, ?_, by rw [h1]; exact hle _ z3, fun hne => hle _ (z4 hne), hopt⟩
  · unfold InfAndFlip.arg
    rw [h3.gm, GM.numberOfVariables, hst.labels, ← h4.1]
    exact LazyFlip.mapM_range_get _

/-- C69. The constructor throws exactly for models without variables. -/
theorem C69_construct (accNeutral accINeutral : V) (maxSize : Nat) (warm : Bool) :
    (gm.numberOfVariables = 0 → InfAndFlip.construct accNeutral accINeutral gm maxSize warm = .throw ()) ∧
    (gm.numberOfVariables ≠ 0 → ∃ s, InfAndFlip.construct accNeutral accINeutral gm maxSize warm = .ok s () ∧ s.maxSize = maxSize ∧ s.sp = [] ∧ s.value = accNeutral ∧ s.bound = accINeutral) := by
  refine ⟨fun h => by simp [InfAndFlip.construct, h], fun h => ⟨_, by rw [InfAndFlip.construct, if_neg h], rfl, rfl, rfl, rfl⟩⟩

end

/-- The hypotheses of C69 are met: the model of C49, with the starting point (0,0). -/
example : ∃ gm s, BuiltModel gm (builtAfter lazyOps).problem ∧ LazySuitable intAddSub false (fun a b => decide (a < b)) (fun _ => false) (builtAfter lazyOps).problem none ∧
    FlipReachable intAddSub false (fun a b => decide (a < b)) (fun _ => false) gm (builtAfter lazyOps).problem s ∧ s.sp = [0, 0] ∧ 0 < s.maxSize := by
  have hnl : (builtAfter lazyOps).problem.numLabels = [2, 2] := by decide
  obtain ⟨c, h1⟩ : ∃ c, (Client.init 1).run (fun _ _ => false) lazyOps = .ok () c := ⟨_, rfl⟩
  refine ⟨c.gm, ?_⟩
  cases h1
  exact ⟨_, ⟨1, _, lazyOps, _, eqvSound_false, lazyOps_valid, rfl, rfl, rfl⟩, minAdd_lazy (by rw [hnl]; decide) (fun _ => by rw [hnl]; decide),
    .start [0, 0] (by rw [← Icm.mem_labelings]; decide) (.construct (accNeutral := 1000) (accINeutral := -1000) (maxSize := 2) (warm := true) rfl) rfl, rfl, by decide⟩

/-- The call on this object, with an algorithm that returns (0,1) (objective 2), from (0,0) (objective 1): (1,1) (objective 0). -/
example : ∃ c s s', (Client.init 1).run (fun _ _ => false) lazyOps = .ok () c ∧ InfAndFlip.construct 1000 (-1000) c.gm 2 true = .ok s () ∧
    (InfAndFlip.setStartingPoint intAddSub.toOperation s [0, 0]).map
      (InfAndFlip.infer ⟨intAddSub, false, fun a b => decide (a < b), fun _ => false, fun _ => false⟩ (fun _ => ([0, 1], -7)) false) = some (.ok s' ()) ∧
    s'.state = [1, 1] ∧ s'.value = 0 ∧ s'.bound = -7 := ⟨_, _, _, rfl, rfl, rfl, rfl, rfl, rfl⟩

/-! ### Violations -/

/-- C69: `arg()` before `infer` reads the labels of an empty vector, also after `setStartingPoint`. -/
theorem C69_violated_arg : ∃ c s s', (Client.init 1).run (fun _ _ => false) lazyOps = .ok () c ∧ InfAndFlip.construct 1000 (-1000) c.gm 2 true = .ok s () ∧
    InfAndFlip.setStartingPoint intAddSub.toOperation s [0, 0] = some s' ∧ InfAndFlip.arg s' = none := ⟨_, _, _, rfl, rfl, rfl, rfl⟩

/-- C69: if the visitor stops, or with `maxSubgraphSize_` 0, the labeling is that of INF even if the starting point is better: here (0,1) with the objective 2, although the starting point has 0. -/
theorem C69_violated_start : ∃ c s s', (Client.init 1).run (fun _ _ => false) lazyOps = .ok () c ∧ InfAndFlip.construct 1000 (-1000) c.gm 0 true = .ok s () ∧
    (InfAndFlip.setStartingPoint intAddSub.toOperation s [1, 1]).map
      (InfAndFlip.infer ⟨intAddSub, false, fun a b => decide (a < b), fun _ => false, fun _ => false⟩ (fun _ => ([0, 1], -7)) false) = some (.ok s' ()) ∧
    s'.state = [0, 1] ∧ s'.value = 2 ∧ s'.spValue = some 0 := ⟨_, _, _, rfl, rfl, rfl, rfl, rfl, rfl⟩

end OpenGM
