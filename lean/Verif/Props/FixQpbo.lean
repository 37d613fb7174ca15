import Verif.Props.Hqpbo
import Verif.Props.FusionMover
/-
C70, continued: FusionMover::fuseFixQpbo (factors of any order).
-/
namespace OpenGM
open Spec Fusion FixFusion
open Hoe (HOE QuadraticRep)
variable {V : Type} [CommRing V] [LinearOrder V] [IsStrictOrderedRing V]

/-- The labels for unset and set bits in factors of order two and more. -/
def flippedL (b : Bool) (_ : Nat) : Nat := if b then 0 else 1

theorem flippedChoice {numLabels : List Nat} (h2 : ∀ n ∈ numLabels, n = 2) : LabelChoice numLabels flippedLabel flippedL := by
  refine ⟨fun b v n hn => ⟨rfl, ?_⟩⟩
  rw [h2 n (List.mem_of_getElem? hn)]
  cases b <;> simp [flippedL]

omit [LinearOrder V] [IsStrictOrderedRing V] in
theorem sumOp_comm : (sumOp V).IsCommMonoid := ⟨fun a b => add_comm a b, fun a b c => add_assoc a b c, fun a => zero_add a⟩

/-- The quadratic function of the submodel can be built. -/
theorem fixQpboTerms_some {sub : GM V} {q : Problem V} (hs : Stores sub q) (h2 : ∀ n ∈ q.numLabels, n = 2) (ho : ∀ t ∈ q.terms, t.vars.length ≤ 9) : ∃ r, fixQpboTerms sub = some r := by
  have hb : HoeBuilt 9 (Hoe.addVars (Hoe.construct : HOE V) sub.numberOfVariables).2 sub.numLabels.length [] := by
    have := HoeBuilt.addVars (D := 9) sub.numberOfVariables (HoeBuilt.new (R := V))
    rw [Nat.zero_add] at this
    exact this
  obtain ⟨h, ms, e1, e2, _⟩ := addFactors_spec (by omega) hs (bitChoice (by rw [hs.labels]; exact h2)) (flippedChoice (by rw [hs.labels]; exact h2)) hs.factors ho _ _ hb
  obtain ⟨h', r, e3, _⟩ := C71_quadratic (by omega) (.built e2)
  refine ⟨r, ?_⟩
  unfold fixQpboTerms
  rw [e1]
  simp only
  rw [e3]
  rfl

/-- C70: for a model with factors of order at most 9, and whatever labels QPBO finds for which variables, `fuseFixQpbo` returns the value of a labeling that takes each label from one of the
arguments, and that is not worse than any of them. (That it is the best of these labelings if QPBO finds a minimum is false, see `C70_violated_fixQpbo`.) -/
theorem C70_fixQpbo_partial {bop : V → V → Bool} {gm : GM V} {p : Problem V} {m : Mover V} {A B R : List Nat} {valA valB : V}
    (h : FusionCall (sumOp V) bop gm p m A B R valA valB) (h9 : ∀ t ∈ p.terms, t.vars.length ≤ 9) (solver : QuadraticRep V → Nat → Option Nat) :
    ∃ s v s', setup bop m A B R valA valB = some s ∧ fuseFixQpbo bop solver s = some (v, s') ∧ MoverReachable bop gm p s'.toMover ∧
      Mixture A B s'.argResult ∧ p.Labeling s'.argResult ∧ gm.evaluate (sumOp V) s'.argResult = some v ∧ bop valA v = false ∧ bop valB v = false := by
  obtain ⟨s, e, hs, hr⟩ := setup_reachable h.built h.mover h.labA h.labB h.result valA valB
  have hp := pairing h.built h.labA h.labB
  have hne := differing_ne hp.lenAB h.differ
  obtain ⟨sub, q, r, h3, h4, h5, _, h6⟩ := submodel_full h.comm hp hs hne
  obtain ⟨terms, ht⟩ := fixQpboTerms_some h4.represents.toStores (fun n hn => by rw [h5] at hn; exact List.eq_of_mem_replicate hn) (fun t ht => by
    obtain ⟨t', ht', hle⟩ := h6 t ht
    exact le_trans hle (h9 t' ht'))
  obtain ⟨x, e1, hx1⟩ := writeBackQpbo_spec hp hs (label := solver terms) (differing A B).length 0 A (by omega) (Written.start _)
  have hyb := qpboLabels_bin hs (solver terms) (differing A B).length
  have hl := mixture_labeling hp (fuses_mixture hyb hx1)
  have hx3 : fuseFixQpbo bop solver s = some (if bop s.valueBest (p.energy (sumOp V) x) then (s.valueBest, { s with argResult := s.argBest }) else (p.energy (sumOp V) x, { s with argResult := x })) := by
    unfold fuseFixQpbo
    rw [h3]
    simp only
    rw [ht]
    have e1' : writeBackQpbo s (solver terms) 0 s.nLocalVar s.argResult = some x := by rw [hs.argResult, hs.count]; exact e1
    simp only
    rw [e1']
    exact takeBest_spec hp hs hl
  obtain ⟨⟨v', s'⟩, hrr, hx4⟩ : ∃ rr, rr = _ ∧ _ = some rr := ⟨_, rfl, hx3⟩
  obtain ⟨g1, g2, g3, g4, _, g5, g6, g8⟩ := best_spec h hs (fuses_mixture hyb hx1) hrr
  exact ⟨s, _, _, e, hx4, by rw [g4]; exact hr, g1, g2, g3, g5, g6⟩

/-- The hypotheses are met by the example of C70, which has a factor with three variables. -/
example : (∃ gm, FusionCall (sumOp Int) (fun a b => decide (a < b)) gm (builtAfter fusionOps).problem (Fusion.construct gm) [0, 1, 0, 0] [2, 1, 1, 1] [0, 0, 0, 0] 15 11) ∧
    ∀ t ∈ (builtAfter fusionOps).problem.terms, t.vars.length ≤ 9 := by
  constructor
  · obtain ⟨gm, hb⟩ := builtModel_exists fusionOps_valid
    exact ⟨gm, sumOp_comm, minAdd_icm.order, minAdd_comparable, hb, .construct, by rw [← Icm.mem_labelings]; decide, by rw [← Icm.mem_labelings]; decide, rfl, by decide, by decide, by decide⟩
  · decide

/-- Two variables and a factor that is -5 for the labels 0 and 1, else 0. -/
def flippedOps : List (BuildOp Int) := [.addVariable 2, .addVariable 2, .addFunction 0 ⟨[2, 2], fun c => if c = [0, 1] then -5 else 0⟩, .addFactor 0 [0, 1]]

theorem flippedOps_valid : ValidHistory 1 Built.empty flippedOps := by
  simp [flippedOps, ValidHistory, BuildOp.Valid, BuildOp.apply, Built.empty, restrict]

/-- The example up to the terms for QPBO. -/
def flippedTerms : Option (List (Nat × Int × Int) × List (Nat × Nat × Int × Int × Int × Int)) :=
  ((((match (Client.init 1).run (fun _ _ => false) flippedOps with | .ok () c => some c.gm | _ => none).bind
    (fun gm => setup (fun a b => decide (a < b)) (Fusion.construct gm) [0, 0] [1, 1] [0, 0] (0 : Int) 0)).bind (fillSubModel native)).bind fixQpboTerms).map (fun (q : QuadraticRep Int) => (q.unary, q.pairwise))

set_option synthInstance.maxSize 1000 in
set_option synthInstance.maxHeartbeats 200000 in
theorem flippedTerms_eq : flippedTerms = some ([(0, 0, -5), (1, 0, 5), (2, 0, 0), (3, 0, 0)], [(0, 2, 0, 0, 0, 5), (1, 2, 0, 0, 0, -5)]) := by decide +kernel

/-- C70 (violated): `fuseFixQpbo` lets a set bit stand for the first argument when it builds the terms of factors of order two and more, but for the second argument in factors of order one and when it
reads the labels. So it takes the wrong labels although QPBO finds the minimum: here the result (1,0) of the fusion of (0,0) and (1,1) has the value 0, but (0,1) has the value -5. This
holds for every solver that labels all nodes with a minimum of the quadratic function. -/
theorem C70_violated_fixQpbo : ∃ (gm : GM Int) (s : Setup Int), BuiltModel gm (builtAfter flippedOps).problem ∧
    setup (fun a b => decide (a < b)) (Fusion.construct gm) [0, 0] [1, 1] [0, 0] 0 0 = some s ∧ Mixture [0, 0] [1, 1] [0, 1] ∧ (builtAfter flippedOps).problem.energy (sumOp Int) [0, 1] = -5 ∧
    ∀ solver : QuadraticRep Int → Nat → Option Nat,
      (∀ q, ∃ z, (∀ z', quadraticForm q.unary q.pairwise z ≤ quadraticForm q.unary q.pairwise z') ∧ ∀ i, solver q i = some (if z i then 1 else 0)) →
      ∃ s', fuseFixQpbo (fun a b => decide (a < b)) solver s = some (0, s') ∧ s'.argResult = [1, 0] := by
  obtain ⟨c, h1⟩ : ∃ c, (Client.init 1).run (fun _ _ => false) flippedOps = .ok () c := ⟨_, rfl⟩
  refine ⟨c.gm, ?_⟩
  obtain ⟨s, hs, sub, hsub, q, hq, hz⟩ : ∃ s, setup (fun a b => decide (a < b)) (Fusion.construct c.gm) [0, 0] [1, 1] [0, 0] 0 0 = some s ∧
      ∃ sub, fillSubModel native s = some sub ∧ ∃ q, fixQpboTerms sub = some q ∧ (q.unary = [(0, 0, -5), (1, 0, 5), (2, 0, 0), (3, 0, 0)] ∧ q.pairwise = [(0, 2, 0, 0, 0, 5), (1, 2, 0, 0, 0, -5)]) := by
    have h := flippedTerms_eq
    unfold flippedTerms at h
    rw [h1] at h
    simp only [Option.bind_some, Option.map_eq_some_iff, Option.bind_eq_some_iff, Prod.mk.injEq] at h
    obtain ⟨q, ⟨sub, ⟨s, e1, e2⟩, e3⟩, e4⟩ := h
    exact ⟨s, e1, sub, e2, q, e3, e4⟩
  have hfin : ∀ label : Nat → Option Nat, label 0 = some 1 → label 1 = some 0 → writeBackQpbo s label 0 s.nLocalVar s.argResult = some [1, 0] ∧
      ∃ s', takeBest (sumOp Int) (fun a b => decide (a < b)) s [1, 0] = some (0, s') ∧ s'.argResult = [1, 0] := by
    clear hsub
    cases h1
    cases hs
    intro label h0 h1
    refine ⟨?_, _, rfl, rfl⟩
    simp [writeBackQpbo, h0, h1]
    rfl
  refine ⟨s, ⟨1, _, flippedOps, c, eqvSound_false, flippedOps_valid, h1, rfl, rfl⟩, hs, ⟨rfl, ?_⟩, rfl, ?_⟩
  · intro v
    match v with
    | 0 => exact Or.inl rfl
    | 1 => exact Or.inr rfl
    | v + 2 => exact Or.inl rfl
  · intro solver hsolver
    obtain ⟨z, hmin, hlab⟩ := hsolver q
    have key : z 0 = true ∧ z 1 = false := by
      have := hmin (fun i => decide (i = 0))
      rw [hz.1, hz.2] at this
      simp only [quadraticForm, List.map_cons, List.map_nil, List.sum_cons, List.sum_nil] at this
      cases h0 : z 0 <;> cases h1 : z 1 <;> cases h2 : z 2 <;> simp [h0, h1, h2] at this ⊢
    obtain ⟨w1, s', w2, w3⟩ := hfin (solver q) (by rw [hlab, key.1]; rfl) (by rw [hlab, key.2]; rfl)
    refine ⟨s', ?_, w3⟩
    unfold fuseFixQpbo
    rw [hsub]
    simp only
    rw [hq]
    simp only
    rw [w1]
    exact w2

end OpenGM
