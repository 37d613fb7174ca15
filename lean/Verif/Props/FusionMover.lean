import Verif.Lemmas.FusionQpbo
import Verif.Props.LazyFlipper
import Mathlib.Data.Finset.Max
/-
C70: the classes FusionMover and HlFusionMover.
-/
namespace OpenGM
open Spec Fusion
variable {V : Type}

/-- The movers for the model `gm` of `p`: newly constructed, or after any number of calls of `setup` (and of the fusions that follow them). -/
inductive MoverReachable (bop : V → V → Bool) (gm : GM V) (p : Problem V) : Mover V → Prop
  | construct : MoverReachable bop gm p (Fusion.construct gm)
  | setup {m : Mover V} {s : Setup V} (A B R : List Nat) (valA valB : V) (h : MoverReachable bop gm p m) (hA : p.Labeling A) (hB : p.Labeling B) (hR : R.length = A.length)
      (e : Fusion.setup bop m A B R valA valB = some s) : MoverReachable bop gm p s.toMover

/-- The arguments of a fusion: a model, a mover for it, and two labelings with their values, which are not the same. -/
structure FusionCall (o : Operation V) (bop : V → V → Bool) (gm : GM V) (p : Problem V) (m : Mover V) (A B R : List Nat) (valA valB : V) : Prop where
  comm : o.IsCommMonoid
  order : StrictOrder bop
  comparable : Comparable bop
  built : BuiltModel gm p
  mover : MoverReachable bop gm p m
  labA : p.Labeling A
  labB : p.Labeling B
  result : R.length = A.length
  valueA : valA = p.energy o A
  valueB : valB = p.energy o B
  differ : A ≠ B

/-- The solver answers a labeling, for each model with variables of two labels, and for each starting point. -/
def Answers (solver : GM V → Option (List Nat) → Option (Option (List Nat))) : Prop :=
  ∀ sub q, BuiltModel sub q → (∀ n ∈ q.numLabels, n = 2) → q.numLabels ≠ [] → ∀ start, (∀ y, start = some y → q.Labeling y) → ∃ y, solver sub start = some (some y) ∧ q.Labeling y

/-- The solver answers an optimal labeling, for each model with variables of two labels. -/
def Exact (o : Operation V) (bop : V → V → Bool) (solver : GM V → Option (List Nat) → Option (Option (List Nat))) : Prop :=
  ∀ sub q, BuiltModel sub q → (∀ n ∈ q.numLabels, n = 2) → q.numLabels ≠ [] → ∀ start, (∀ y, start = some y → q.Labeling y) →
    ∃ y, solver sub start = some (some y) ∧ q.Labeling y ∧ ∀ z, q.Labeling z → bop (q.energy o z) (q.energy o y) = false

namespace Fusion
variable {o : Operation V} {bop : V → V → Bool} {gm : GM V} {p : Problem V} {m : Mover V} {A B R : List Nat} {valA valB : V}

theorem reachable_sizes (hb : BuiltModel gm p) (h : MoverReachable bop gm p m) :
    m.gm = gm ∧ m.localToGlobalVi.length = gm.numberOfVariables ∧ m.globalToLocalVi.length = gm.numberOfVariables := by
  induction h with
  | construct => simp [construct]
  | setup A B R valA valB _ hA hB hR e ih =>
    obtain ⟨h1, h2, h3⟩ := ih
    have hn : gm.numberOfVariables = p.numLabels.length := by rw [GM.numberOfVariables, hb.represents.labels]
    obtain ⟨s', e', hs⟩ := setup_spec (gm := gm) (by rw [hA.1, hn]) (by rw [hB.1, hn]) (by rw [hR, hA.1, hn]) bop valA valB h1.symm h2 h3
    rw [e] at e'
    cases e'
    exact ⟨hs.model, hs.l2gLen, hs.g2lLen⟩

theorem pairing (hb : BuiltModel gm p) (hA : p.Labeling A) (hB : p.Labeling B) : Pairing gm p A B := ⟨hb.represents, hA, hB⟩

theorem setup_reachable (hb : BuiltModel gm p) (hm : MoverReachable bop gm p m) (hA : p.Labeling A) (hB : p.Labeling B) (hR : R.length = A.length) (valA valB : V) :
    ∃ s, setup bop m A B R valA valB = some s ∧ Prepared bop gm A B valA valB s ∧ MoverReachable bop gm p s.toMover := by
  have hn : gm.numberOfVariables = p.numLabels.length := by rw [GM.numberOfVariables, hb.represents.labels]
  obtain ⟨h1, h2, h3⟩ := reachable_sizes hb hm
  obtain ⟨s, e, hs⟩ := setup_spec (gm := gm) (by rw [hA.1, hn]) (by rw [hB.1, hn]) (by rw [hR, hA.1, hn]) bop valA valB h1.symm h2 h3
  exact ⟨s, e, hs, .setup A B R valA valB hm hA hB hR e⟩

theorem differing_ne (hl : A.length = B.length) (h : A ≠ B) : differing A B ≠ [] := by
  intro hn
  apply h
  apply List.ext_getElem?
  intro v
  by_contra hd
  by_cases hv : v < A.length
  · have := mem_differing.mpr ⟨hv, hd⟩
    rw [hn] at this
    simp at this
  · apply hd
    rw [List.getElem?_eq_none (by omega), List.getElem?_eq_none (by omega)]

theorem bin_labeling {q : Problem V} {n : Nat} (hq : q.numLabels = List.replicate n 2) {y : List Nat} : q.Labeling y ↔ Bin n y := by
  constructor
  · intro h
    have hlen : y.length = n := by rw [h.1, hq, List.length_replicate]
    refine ⟨hlen, ?_⟩
    intro l hl
    obtain ⟨i, hi, rfl⟩ := List.getElem_of_mem hl
    exact h.2 i _ 2 (List.getElem?_eq_getElem hi) (by rw [hq, List.getElem?_replicate, if_pos (by omega)])
  · intro h
    refine ⟨by rw [h.1, hq, List.length_replicate], ?_⟩
    intro v l n' hl hn'
    rw [hq, List.getElem?_replicate] at hn'
    split at hn'
    · obtain rfl := Option.some.inj hn'
      exact h.2 l (List.mem_of_getElem? hl)
    · simp at hn'

theorem warm_bin {s : Setup V} (h : Prepared bop gm A B valA valB s) (n : Nat) : Bin n (List.replicate n s.bestLabel) := by
  refine ⟨by simp, ?_⟩
  intro l hl
  rw [List.eq_of_mem_replicate hl, h.bestLabel]
  split <;> omega

/-- What `takeBest` returns: a labeling that is `x` or the best argument, with its value, not worse than the arguments. -/
theorem best_spec (h : FusionCall o bop gm p m A B R valA valB) {s : Setup V} (hs : Prepared bop gm A B valA valB s) {x : List Nat} (hx : Mixture A B x)
    {r : V × Setup V} (hr : r = if bop s.valueBest (p.energy o x) then (s.valueBest, { s with argResult := s.argBest }) else (p.energy o x, { s with argResult := x })) :
    Mixture A B r.2.argResult ∧ p.Labeling r.2.argResult ∧ gm.evaluate o r.2.argResult = some r.1 ∧ r.2.toMover = s.toMover ∧ r.1 = p.energy o r.2.argResult ∧
      bop valA r.1 = false ∧ bop valB r.1 = false ∧ bop (p.energy o x) r.1 = false := by
  have hp := pairing h.built h.labA h.labB
  have hbestE : s.valueBest = p.energy o s.argBest := by
    rw [hs.valueBest, hs.argBest, h.valueA, h.valueB]
    split <;> rfl
  have hmixA : Mixture A B A := ⟨rfl, fun v => Or.inl rfl⟩
  have hmixB : Mixture A B B := ⟨hp.lenAB.symm, fun v => Or.inr rfl⟩
  have hbestM : Mixture A B s.argBest := by
    rw [hs.argBest]
    split
    · exact hmixA
    · exact hmixB
  have hasym : ∀ a b, bop a b = true → bop b a = false := by
    intro a b hab
    by_contra hc
    have := h.order.trans a b a hab (by simpa using hc)
    rw [h.order.irrefl] at this
    simp at this
  have hA0 : bop valA s.valueBest = false := by
    rw [hs.valueBest]
    split
    · exact h.order.irrefl _
    · next hn => simpa using hn
  have hB0 : bop valB s.valueBest = false := by
    rw [hs.valueBest]
    split
    · next hn => exact hasym _ _ hn
    · exact h.order.irrefl _
  subst hr
  by_cases hc : bop s.valueBest (p.energy o x) = true
  · rw [if_pos hc]
    refine ⟨hbestM, mixture_labeling hp hbestM, ?_, rfl, hbestE, hA0, hB0, hasym _ _ hc⟩
    rw [evaluate_spec o hp.rep.toStores _ (mixture_labeling hp hbestM), hbestE]
  · rw [if_neg hc]
    have hneg : ∀ a, bop a s.valueBest = false → bop a (p.energy o x) = false := by
      intro a ha
      by_contra ht
      rcases h.comparable a s.valueBest (p.energy o x) (by simpa using ht) with h1 | h1
      · rw [ha] at h1
        simp at h1
      · exact hc h1
    exact ⟨hx, mixture_labeling hp hx, evaluate_spec o hp.rep.toStores _ (mixture_labeling hp hx), rfl, rfl, hneg _ hA0, hneg _ hB0, h.order.irrefl _⟩

end Fusion

/-! ### The fusion model -/

/-- C70: `setup` never fails, and numbers the variables on which the arguments differ; and if there are some, then the model that the mover gives to the solver has one variable with two labels
for each of them, and up to one constant its energy is that of the original model: at each of its labelings `y`, it is the energy of the labeling that takes the label of the first argument
where `y` is 0, the label of the second where `y` is 1, and the common label elsewhere. -/
theorem C70_model {o : Operation V} {bop : V → V → Bool} {gm : GM V} {p : Problem V} {m : Mover V} {A B R : List Nat} (ho : o.IsCommMonoid) (hb : BuiltModel gm p)
    (hm : MoverReachable bop gm p m) (hA : p.Labeling A) (hB : p.Labeling B) (hR : R.length = A.length) (valA valB : V) :
    ∃ s, setup bop m A B R valA valB = some s ∧ MoverReachable bop gm p s.toMover ∧ s.nLocalVar = (differing A B).length ∧ s.argResult = A ∧
      (A ≠ B → ∃ sub q r, fillSubModel native s = some sub ∧ BuiltModel sub q ∧ q.numLabels = List.replicate (differing A B).length 2 ∧
        ∀ y x, q.Labeling y → Fuses A B y x → p.energy o x = o.op r (q.energy o y)) := by
  obtain ⟨s, e, hs, hr⟩ := setup_reachable hb hm hA hB hR valA valB
  refine ⟨s, e, hr, hs.count, hs.argResult, ?_⟩
  intro hne
  have hp := pairing hb hA hB
  obtain ⟨sub, q, r, h1, h2, h3, h4⟩ := submodel_spec ho hp hs (differing_ne hp.lenAB hne)
  exact ⟨sub, q, r, h1, h2, h3, fun y x hy hx => h4 y x ((bin_labeling h3).mp hy) hx⟩

/-- C70: for each solver that answers a labeling, `fuse` returns the value of a labeling that takes each label from one of the arguments, and that is not worse than any of them.
Missing for the full property: a solver with the status UNKNOWN (`C70_violated_unknown`). -/
theorem C70_fuse_partial {o : Operation V} {bop : V → V → Bool} {gm : GM V} {p : Problem V} {m : Mover V} {A B R : List Nat} {valA valB : V}
    (h : FusionCall o bop gm p m A B R valA valB) {solver : GM V → Option (List Nat) → Option (Option (List Nat))} (hsol : Answers solver) (warmStart : Bool) :
    ∃ s v s', setup bop m A B R valA valB = some s ∧ fuse o bop solver warmStart s = some (v, s') ∧ MoverReachable bop gm p s'.toMover ∧
      Mixture A B s'.argResult ∧ p.Labeling s'.argResult ∧ gm.evaluate o s'.argResult = some v ∧ bop valA v = false ∧ bop valB v = false := by
  obtain ⟨s, e, hs, hr⟩ := setup_reachable h.built h.mover h.labA h.labB h.result valA valB
  have hp := pairing h.built h.labA h.labB
  have hne := differing_ne hp.lenAB h.differ
  obtain ⟨sub, q, r, h1, h2, h3, h4⟩ := submodel_spec h.comm hp hs hne
  obtain ⟨y, hy1, hy2⟩ := hsol sub q h2 (by rw [h3]; intro n hn; exact List.eq_of_mem_replicate hn) (by rw [h3]; simpa using hne)
    (if warmStart then some (List.replicate (differing A B).length s.bestLabel) else none) (by
      intro y hy
      split at hy
      · rw [← Option.some.inj hy]
        exact (bin_labeling h3).mpr (warm_bin hs _)
      · simp at hy)
  obtain ⟨x, hx1, hx2, hx3⟩ := fuse_spec (o := o) hp hs h1 ((bin_labeling h3).mp hy2) hy1
  obtain ⟨⟨v', s'⟩, hrr, hx4⟩ : ∃ rr, rr = _ ∧ _ = some rr := ⟨_, rfl, hx3⟩
  obtain ⟨g1, g2, g3, g4, _, g5, g6, _⟩ := best_spec h hs (fuses_mixture ((bin_labeling h3).mp hy2) hx1) hrr
  exact ⟨s, _, _, e, hx4, by rw [g4]; exact hr, g1, g2, g3, g5, g6⟩

/-- C70: with a solver that answers optimal labelings, no labeling that takes each label from one of the arguments is better than the result of `fuse`. -/
theorem C70_exact {o : Operation V} {bop : V → V → Bool} {gm : GM V} {p : Problem V} {m : Mover V} {A B R : List Nat} {valA valB : V}
    (h : FusionCall o bop gm p m A B R valA valB) (hrefl : Reflects o bop) {solver : GM V → Option (List Nat) → Option (Option (List Nat))} (hsol : Exact o bop solver) (warmStart : Bool) :
    ∃ s v s', setup bop m A B R valA valB = some s ∧ fuse o bop solver warmStart s = some (v, s') ∧ Mixture A B s'.argResult ∧ v = p.energy o s'.argResult ∧
      ∀ z, Mixture A B z → bop (p.energy o z) v = false := by
  obtain ⟨s, e, hs, hr⟩ := setup_reachable h.built h.mover h.labA h.labB h.result valA valB
  have hp := pairing h.built h.labA h.labB
  have hne := differing_ne hp.lenAB h.differ
  obtain ⟨sub, q, r, h1, h2, h3, h4⟩ := submodel_spec h.comm hp hs hne
  obtain ⟨y, hy1, hy2, hy3⟩ := hsol sub q h2 (by rw [h3]; intro n hn; exact List.eq_of_mem_replicate hn) (by rw [h3]; simpa using hne)
    (if warmStart then some (List.replicate (differing A B).length s.bestLabel) else none) (by
      intro y hy
      split at hy
      · rw [← Option.some.inj hy]
        exact (bin_labeling h3).mpr (warm_bin hs _)
      · simp at hy)
  have hyb := (bin_labeling h3).mp hy2
  obtain ⟨x, hx1, hx2, hx3⟩ := fuse_spec (o := o) hp hs h1 hyb hy1
  obtain ⟨⟨v', s'⟩, hrr, hx4⟩ : ∃ rr, rr = _ ∧ _ = some rr := ⟨_, rfl, hx3⟩
  obtain ⟨g1, g2, g3, g4, g5, _, _, g8⟩ := best_spec h hs (fuses_mixture hyb hx1) hrr
  refine ⟨s, _, _, e, hx4, g1, g5, ?_⟩
  intro z hz
  obtain ⟨yz, hz1, hz2⟩ := mixture_fuses hz
  have hnot : bop (p.energy o z) (p.energy o x) = false := by
    by_contra hc
    rw [h4 yz z hz1 hz2, h4 y x hyb hx1] at hc
    have := hrefl r _ _ (by simpa using hc)
    rw [hy3 yz ((bin_labeling h3).mpr hz1)] at this
    simp at this
  by_contra hc
  rcases h.comparable _ (p.energy o x) _ (by simpa using hc) with h5 | h5
  · rw [hnot] at h5
    simp at h5
  · rw [g8] at h5
    simp at h5

/-! ### HlFusionMover with the LazyFlipper -/

/-- C70: `HlFusionMover::fuse` with the LazyFlipper answers true and finds a labeling that takes each label from one of the arguments, with its value, which is not worse than the arguments, and
such that no labeling of this kind that differs from it on at most `maxSubgraphSize` variables is better. -/
theorem C70_lazy {o : InvOperation V} {multiplier : Bool} {bop : V → V → Bool} {reevaluate : V → Bool} {gm : GM V} {p : Problem V} {m : Mover V} {A B R : List Nat} {valA valB : V}
    (h : FusionCall o.toOperation bop gm p m A B R valA valB) (hctx : IcmContext o bop) (hlaws : multiplier = true ∨ o.Laws) (hrep : Replaceable o bop reevaluate)
    (maxSize : Nat) (hmax : 1 ≤ maxSize) (valRes : V) :
    ∃ res v m', hlFuse ⟨o, multiplier, bop, reevaluate, fun _ => false⟩ maxSize m A B R valA valB valRes = some (true, res, v, m') ∧ MoverReachable bop gm p m' ∧
      Mixture A B res ∧ p.Labeling res ∧ gm.evaluate o.toOperation res = some v ∧ bop valA v = false ∧ bop valB v = false ∧
      ∀ z, Mixture A B z → distance res z ≤ maxSize → bop (p.energy o.toOperation z) v = false := by
  obtain ⟨s, e, hs, hr⟩ := setup_reachable h.built h.mover h.labA h.labB h.result valA valB
  have hp := pairing h.built h.labA h.labB
  have hne := differing_ne hp.lenAB h.differ
  have hpos : 0 < (differing A B).length := List.length_pos_of_ne_nil hne
  obtain ⟨sub, q, r, h1, h2, h3, h4⟩ := submodel_spec h.comm hp hs hne
  have hnl : q.numLabels ≠ [] := by rw [h3]; simpa using hne
  have hqlen : q.numLabels.length = (differing A B).length := by rw [h3, List.length_replicate]
  have htwo : ∀ n ∈ q.numLabels, n = 2 := by rw [h3]; intro n hn; exact List.eq_of_mem_replicate hn
  have hsuit : LazySuitable o multiplier bop reevaluate q none := ⟨hctx, hlaws, fun k hk => by rw [htwo k hk], fun hc => by simp at hc, fun _ => hrep⟩
  set y0 := List.replicate (differing A B).length s.bestLabel with hy0
  have hy0l : q.Labeling y0 := (bin_labeling h3).mpr (warm_bin hs _)
  obtain ⟨lf, a1, a2, a3, _⟩ := C49_construct (o := o) (multi := none) h2 (fun k hk => by rw [htwo k hk]; omega) hnl maxSize hmax [] (.inr (by rw [hqlen]; simp; omega))
  obtain ⟨c1, _, _⟩ := C49_setters hsuit h2 hnl lf (.fresh a2)
  obtain ⟨lf1, d1, d2, d3⟩ := c1 y0 hy0l
  have hfresh : LazyFresh o sub q none lf1 := .start y0 a2 hy0l d1
  obtain ⟨lf2, y1, y, i1, i2, i3, i4, i5, i6, i7, i8⟩ := C49_infer_partial hsuit h2 hnl (fun _ => false) lf1 (.fresh hfresh)
  obtain ⟨lf2', y', j1, j2, j3, j4⟩ := C49_optimal_partial hsuit h.comparable h2 hnl lf1 hfresh
  rw [i1] at j1
  cases j1
  rw [i5] at j2
  cases j2
  rw [d2] at i3
  cases i3
  have hyb := (bin_labeling h3).mp i6
  have hsolver : lazySolver ⟨o, multiplier, bop, reevaluate, fun _ => false⟩ maxSize sub (if true then some y0 else none) = some (some y) := by
    unfold lazySolver
    simp only [if_true]
    rw [a1]
    simp only
    rw [d1]
    simp only
    rw [i1]
    simp only
    rw [i5]
    rfl
  obtain ⟨x, hx1, hx2, hx3⟩ := fuse_spec (o := o.toOperation) hp hs h1 hyb hsolver
  -- the labeling of the solver is not worse than the best argument
  have hst := h2.represents.toStores
  rw [evaluate_spec _ hst _ hy0l] at i4
  rw [evaluate_spec _ hst _ i6] at i7
  have hbestE : s.valueBest = p.energy o.toOperation s.argBest := by
    rw [hs.valueBest, hs.argBest, h.valueA, h.valueB]
    split <;> rfl
  have hbestF : Fuses A B y0 s.argBest := by
    have hrp : ∀ i l : Nat, y0[i]? = some l → l = s.bestLabel := by
      intro i l hl
      exact List.eq_of_mem_replicate (List.mem_of_getElem? hl)
    rw [hs.argBest]
    have hbl := hs.bestLabel
    split
    · next hc =>
      rw [if_pos hc] at hbl
      exact ⟨rfl, fun _ _ => rfl, fun _ _ _ _ => rfl, fun i v _ hy => by have := hrp i 1 hy; omega⟩
    · next hc =>
      rw [if_neg hc] at hbl
      exact ⟨hp.lenAB.symm, fun _ hv => hv.symm, fun i v _ hy => by have := hrp i 0 hy; omega, fun _ _ _ _ => rfl⟩
  have hnot : bop s.valueBest (p.energy o.toOperation x) = false := by
    rw [hbestE, h4 y0 _ (warm_bin hs _) hbestF, h4 y x hyb hx1]
    by_contra hc
    have hc' := hctx.reflects r _ _ (by simpa using hc)
    rcases i8 with rfl | hlt
    · rw [h.order.irrefl] at hc'
      simp at hc'
    · rw [← Option.some.inj i7, ← Option.some.inj i4] at hlt
      have := h.order.trans _ _ _ hc' hlt
      rw [h.order.irrefl] at this
      simp at this
  obtain ⟨g1, g2, g3, g4, _, g5, g6, _⟩ := best_spec h hs (fuses_mixture hyb hx1) rfl
  rw [if_neg (by rw [hnot]; simp)] at g1 g2 g3 g4 g5 g6 hx3
  refine ⟨x, p.energy o.toOperation x, s.toMover, ?_, hr, g1, g2, g3, g5, g6, ?_⟩
  · unfold hlFuse
    rw [e]
    simp only
    rw [hs.count, if_pos hpos, hx3]
  · intro z hz hd
    obtain ⟨yz, hz1, hz2⟩ := mixture_fuses hz
    by_contra hc
    rw [h4 yz z hz1 hz2, h4 y x hyb hx1] at hc
    have hc' := hctx.reflects r _ _ (by simpa using hc)
    rw [j4 yz ((bin_labeling h3).mpr hz1) (by rw [d3, a3]; exact (distance_fuses hyb hz1 hx1 hz2).trans hd)] at hc'
    simp at hc'

/-- C70: if the arguments are the same labeling, `HlFusionMover::fuse` answers false, the result is this labeling, and the variable for its value is not changed. -/
theorem C70_same {c : LazyFlip.Request V} {gm : GM V} {p : Problem V} {m : Mover V} {A R : List Nat} (hb : BuiltModel gm p) (hm : MoverReachable c.bop gm p m) (hA : p.Labeling A)
    (hR : R.length = A.length) (maxSize : Nat) (valA valB valRes : V) :
    ∃ m', hlFuse c maxSize m A A R valA valB valRes = some (false, A, valRes, m') ∧ MoverReachable c.bop gm p m' := by
  obtain ⟨s, e, hs, hr⟩ := setup_reachable hb hm hA hA hR valA valB
  refine ⟨s.toMover, ?_, hr⟩
  unfold hlFuse
  rw [e]
  simp only
  have : (differing A A).length = 0 := by simp [differing]
  rw [hs.count, this, if_neg (by omega), hs.argResult]

/-! ### QPBO -/

/-- C70: if no factor has more than two variables, the terms that `fuseQpbo` gives to QPBO are well formed (the variables of a pairwise term are different) and have, up to one constant, the energy
of the labelings that take each label from one of the arguments. -/
theorem C70_qpboTerms {o : Operation V} {bop : V → V → Bool} {gm : GM V} {p : Problem V} {m : Mover V} {A B R : List Nat} (ho : o.IsCommMonoid) (hb : BuiltModel gm p)
    (hm : MoverReachable bop gm p m) (hA : p.Labeling A) (hB : p.Labeling B) (hR : R.length = A.length) (hne : A ≠ B) (h2 : ∀ t ∈ p.terms, t.vars.length ≤ 2) (valA valB : V) :
    ∃ s q r, setup bop m A B R valA valB = some s ∧ fillSubModel qpbo s = some q ∧ q.nodes = (differing A B).length ∧ (∀ t ∈ q.unary, t.1 < q.nodes) ∧
      (∀ t ∈ q.pairwise, t.1 < t.2.1 ∧ t.2.1 < q.nodes) ∧
      ∀ y x, y.length = q.nodes → (∀ l ∈ y, l < 2) → Fuses A B y x → p.energy o x = o.op r (quadratic o q.unary q.pairwise y) := by
  obtain ⟨s, e, hs, hr⟩ := setup_reachable hb hm hA hB hR valA valB
  have hp := pairing hb hA hB
  obtain ⟨q, r, h3, h4, h5, h6, h7⟩ := qpbo_spec ho hp hs (differing_ne hp.lenAB hne) h2
  refine ⟨s, q, r, e, h3, h4, h5, h6, ?_⟩
  intro y x hy hy2 hx
  exact h7 y x ⟨by rw [hy, h4], hy2⟩ hx

/-- C70: whatever labels QPBO finds, and for which variables, `fuseQpbo` returns the value of a labeling that takes each label from one of the arguments, and that is not worse than any of them.
If QPBO labels all variables, and with these labels the value of the terms is best, then no labeling that takes each label from one of the arguments is better. -/
theorem C70_qpbo {o : Operation V} {bop : V → V → Bool} {gm : GM V} {p : Problem V} {m : Mover V} {A B R : List Nat} {valA valB : V}
    (h : FusionCall o bop gm p m A B R valA valB) (h2 : ∀ t ∈ p.terms, t.vars.length ≤ 2) (solver : QpboTerms V → Nat → Nat → Option Nat) :
    ∃ s q v s', setup bop m A B R valA valB = some s ∧ fillSubModel qpbo s = some q ∧ fuseQpbo o bop solver s = some (v, s') ∧ MoverReachable bop gm p s'.toMover ∧
      Mixture A B s'.argResult ∧ p.Labeling s'.argResult ∧ gm.evaluate o s'.argResult = some v ∧ bop valA v = false ∧ bop valB v = false ∧
      (Reflects o bop → ∀ y, (∀ i, i < q.nodes → solver q s.bestLabel i = y[i]?) → y.length = q.nodes → (∀ l ∈ y, l < 2) →
        (∀ y', y'.length = q.nodes → (∀ l ∈ y', l < 2) → bop (quadratic o q.unary q.pairwise y') (quadratic o q.unary q.pairwise y) = false) →
        ∀ z, Mixture A B z → bop (p.energy o z) v = false) := by
  obtain ⟨s, e, hs, hr⟩ := setup_reachable h.built h.mover h.labA h.labB h.result valA valB
  have hp := pairing h.built h.labA h.labB
  have hne := differing_ne hp.lenAB h.differ
  obtain ⟨q, r, h3, h4, h5, h6, h7⟩ := qpbo_spec h.comm hp hs hne h2
  obtain ⟨x, hx1, hx2, hx3⟩ := fuseQpbo_spec (o := o) hp hs h3 solver
  have hyb := qpboLabels_bin hs (solver q s.bestLabel) (differing A B).length
  obtain ⟨⟨v', s'⟩, hrr, hx4⟩ : ∃ rr, rr = _ ∧ _ = some rr := ⟨_, rfl, hx3⟩
  obtain ⟨g1, g2, g3, g4, _, g5, g6, g8⟩ := best_spec h hs (fuses_mixture hyb hx1) hrr
  refine ⟨s, q, _, _, e, h3, hx4, by rw [g4]; exact hr, g1, g2, g3, g5, g6, ?_⟩
  intro hrefl y hy1 hy2 hy3 hy4 z hz
  have hyq : qpboLabels (solver q s.bestLabel) s.bestLabel (differing A B).length = y := by
    apply List.ext_getElem?
    intro i
    by_cases hi : i < (differing A B).length
    · have hlt : i < y.length := by rw [hy2, h4]; exact hi
      have hb := hy3 _ (List.getElem_mem hlt)
      rw [qpboLabels_get hi, hy1 i (by rw [h4]; exact hi), List.getElem?_eq_getElem hlt]
      rcases (by omega : y[i] = 0 ∨ y[i] = 1) with h0 | h1
      · simp [h0]
      · simp [h1]
    · rw [List.getElem?_eq_none (by simp [qpboLabels]; omega), List.getElem?_eq_none (by rw [hy2, h4]; omega)]
  rw [hyq] at hx1 hyb
  obtain ⟨yz, hz1, hz2⟩ := mixture_fuses hz
  have hnot : bop (p.energy o z) (p.energy o x) = false := by
    by_contra hc
    rw [h7 yz z hz1 hz2, h7 y x hyb hx1] at hc
    have := hrefl r _ _ (by simpa using hc)
    have h9 := hy4 yz (by rw [hz1.1, h4]) hz1.2
    unfold quad at this
    rw [h9] at this
    simp at this
  by_contra hc
  rcases h.comparable _ (p.energy o x) _ (by simpa using hc) with h9 | h9
  · rw [hnot] at h9
    simp at h9
  · rw [g8] at h9
    simp at h9

/-- C70: a factor with more than two variables on which the arguments differ is refused by `fuseQpbo` (exception in QpboModelProxy). -/
theorem C70_qpbo_order {o : Operation V} {bop : V → V → Bool} {gm : GM V} {p : Problem V} {m : Mover V} {A B R : List Nat} (hb : BuiltModel gm p) (hm : MoverReachable bop gm p m)
    (hA : p.Labeling A) (hB : p.Labeling B) (hR : R.length = A.length) {t : Term V} (ht : t ∈ p.terms) (h3 : 2 < (t.vars.filter (fun v => decide (v ∈ differing A B))).length)
    (solver : QpboTerms V → Nat → Nat → Option Nat) (valA valB : V) :
    ∃ s, setup bop m A B R valA valB = some s ∧ fuseQpbo o bop solver s = none := by
  obtain ⟨s, e, hs, _⟩ := setup_reachable hb hm hA hB hR valA valB
  refine ⟨s, e, ?_⟩
  have hp := pairing hb hA hB
  obtain ⟨v, hv⟩ := List.exists_mem_of_length_pos (show 0 < (t.vars.filter (fun v => decide (v ∈ differing A B))).length by omega)
  obtain ⟨hv1, hv2⟩ := List.mem_filter.mp hv
  have hvd : v ∈ differing A B := by simpa using hv2
  obtain ⟨es, fs, f1, f2, f3, f4⟩ := fillSubModel_spec hp hs (List.ne_nil_of_mem hvd)
  obtain ⟨fi, hfi, hget⟩ := List.getElem_of_mem ht
  have hget' : p.terms[fi]? = some t := by rw [List.getElem?_eq_getElem hfi, hget]
  have hmem : fi ∈ fs := (f3 fi).mpr ⟨v, hvd, mentions_iff.mpr ⟨t, hget', hv1⟩⟩
  obtain ⟨i, hi, hfsi⟩ := List.getElem_of_mem hmem
  have hlen := f1.length_eq
  have hem := f1.get (i := i) hi (by omega)
  simp only [List.get_eq_getElem, hfsi] at hem
  obtain ⟨t', ht', hl, _⟩ := hem.term
  rw [hget'] at ht'
  cases ht'
  have hrange : ∀ w ∈ t.vars, w < p.numLabels.length := by
    obtain ⟨fr, _, hfm⟩ := factor_of_term hp hget'
    intro w hw
    rw [← hp.rep.labels]
    exact hfm.range w hw
  have hfe : t.vars.filter (df A B) = t.vars.filter (fun v => decide (v ∈ differing A B)) := by
    apply List.filter_congr
    intro w hw
    have := df_mem hp (hrange w hw)
    by_cases hd : w ∈ differing A B
    · simp [hd, this.mpr hd]
    · simp only [hd, decide_false]
      by_contra hc
      exact hd (this.mp (by simpa using hc))
  have hbig : 2 < (es[i]'(by omega)).2.1.shape.length := by
    rw [hem.shape, List.length_replicate, hl, List.length_map, hfe]
    exact h3
  have hnone : ∀ (es : List (Nat × Fn V × List Nat)) (m : QpboTerms V), (∃ e ∈ es, 2 < e.2.1.shape.length) → addAll qpbo m es = none := by
    intro es
    induction es with
    | nil => rintro m ⟨e, he, _⟩; simp at he
    | cons e0 es ih =>
      rintro m ⟨e, he, h2⟩
      rw [addAll_cons]
      rcases List.mem_cons.mp he with rfl | he
      · have : qpbo.addFactor m e.1 e.2.1 e.2.2 = none := by
          simp only [qpbo]
          rw [if_neg (by omega)]
        rw [this]
        rfl
      · cases qpbo.addFactor m e0.1 e0.2.1 e0.2.2 with
        | none => rfl
        | some m' => exact ih m' ⟨e, he, h2⟩
  unfold fuseQpbo
  rw [f4, hnone es _ ⟨_, List.getElem_mem (by omega), hbig⟩]

/-! ### Concrete cases -/

/-- Four variables with three, two, three and two labels; a factor with all variables but the second, and others with one and two variables. -/
def fusionOps : List (BuildOp Int) :=
  [.addVariable 3, .addVariable 2, .addVariable 3, .addVariable 2,
   .addFunction 0 ⟨[3], fun c => match c with | [0] => 2 | [1] => 9 | _ => 0⟩, .addFactor 0 [0],
   .addFunction 0 ⟨[3, 3, 2], fun c => match c with | [0, 0, 0] => 5 | [2, 1, 1] => 5 | [2, 1, 0] => 1 | _ => 3⟩, .addFactor 1 [0, 2, 3],
   .addFunction 0 ⟨[2, 3], fun c => match c with | [1, 1] => -1 | _ => 1⟩, .addFactor 2 [1, 2],
   .addFunction 0 ⟨[], fun _ => 7⟩, .addFactor 3 []]

theorem fusionOps_valid : ValidHistory 1 Built.empty fusionOps := by
  simp [fusionOps, ValidHistory, BuildOp.Valid, BuildOp.apply, Built.empty, restrict]

/-- The same without the factor with three variables. -/
def fusionPairOps : List (BuildOp Int) :=
  [.addVariable 3, .addVariable 2, .addVariable 3, .addVariable 2,
   .addFunction 0 ⟨[3], fun c => match c with | [0] => 2 | [1] => 9 | _ => 0⟩, .addFactor 0 [0],
   .addFunction 0 ⟨[2, 3], fun c => match c with | [1, 1] => -1 | _ => 1⟩, .addFactor 1 [1, 2],
   .addFunction 0 ⟨[3, 2], fun c => match c with | [1, 1] => 6 | _ => 1⟩, .addFactor 2 [2, 3]]

theorem fusionPairOps_valid : ValidHistory 1 Built.empty fusionPairOps := by
  simp [fusionPairOps, ValidHistory, BuildOp.Valid, BuildOp.apply, Built.empty, restrict]

/-- The hypotheses of the theorems are met by this model with the labelings (0,1,0,0) and (2,1,1,1), which differ on three variables, for a new mover. -/
theorem fusion_call : ∃ gm, FusionCall intAdd (fun a b => decide (a < b)) gm (builtAfter fusionOps).problem (Fusion.construct gm) [0, 1, 0, 0] [2, 1, 1, 1] [0, 0, 0, 0] 15 11 := by
  obtain ⟨gm, hb⟩ := builtModel_exists fusionOps_valid
  exact ⟨gm, intAdd_comm, minAdd_icm.order, minAdd_comparable, hb, .construct, by rw [← Icm.mem_labelings]; decide, by rw [← Icm.mem_labelings]; decide, rfl, by decide, by decide, by decide⟩

/-- The same for the model with factors of at most two variables. -/
example : (∃ gm, FusionCall intAdd (fun a b => decide (a < b)) gm (builtAfter fusionPairOps).problem (Fusion.construct gm) [0, 1, 0, 0] [2, 1, 1, 1] [0, 0, 0, 0] 4 5) ∧
    ∀ t ∈ (builtAfter fusionPairOps).problem.terms, t.vars.length ≤ 2 := by
  constructor
  · obtain ⟨gm, hb⟩ := builtModel_exists fusionPairOps_valid
    exact ⟨gm, intAdd_comm, minAdd_icm.order, minAdd_comparable, hb, .construct, by rw [← Icm.mem_labelings]; decide, by rw [← Icm.mem_labelings]; decide, rfl, by decide, by decide, by decide⟩
  · decide

/-- A factor with three variables on which the arguments differ, as in `C70_qpbo_order`. -/
example : ∃ t ∈ (builtAfter fusionOps).problem.terms, 2 < (t.vars.filter (fun v => decide (v ∈ differing [0, 1, 0, 0] [2, 1, 1, 1]))).length := by decide

/-- The hypotheses on the operation, for the Minimizer with the Adder on integers. -/
example : IcmContext intAddSub (fun a b => decide (a < b)) ∧ intAddSub.Laws ∧ Replaceable intAddSub (fun a b => decide (a < b)) (fun _ => false) ∧ Reflects intAdd (fun a b => decide (a < b)) :=
  ⟨minAdd_icm, intAddSub_laws, minAdd_context.replace, minAdd_icm.reflects⟩

/-- There are exact solvers; they answer labelings. -/
example : ∃ solver, Exact intAdd (fun a b => decide (a < b)) solver ∧ Answers solver := by
  have key : ∀ (sub : GM Int) (q : Problem Int), BuiltModel sub q → (∀ n ∈ q.numLabels, n = 2) →
      ∃ y, q.Labeling y ∧ ∀ z, q.Labeling z → decide (q.energy intAdd z < q.energy intAdd y) = false := by
    intro sub q _ h2
    have hne : (allTuples q.numLabels).toFinset.Nonempty := by
      refine ⟨List.replicate q.numLabels.length 0, ?_⟩
      rw [List.mem_toFinset, Icm.mem_labelings]
      refine ⟨by simp, ?_⟩
      intro v l n hl hn
      rw [List.eq_of_mem_replicate (List.mem_of_getElem? hl), h2 n (List.mem_of_getElem? hn)]
      omega
    obtain ⟨y, hy, hmin⟩ := (allTuples q.numLabels).toFinset.exists_min_image (fun y => q.energy intAdd y) hne
    refine ⟨y, Icm.mem_labelings.mp (List.mem_toFinset.mp hy), ?_⟩
    intro z hz
    have := hmin z (List.mem_toFinset.mpr (Icm.mem_labelings.mpr hz))
    simpa using this
  classical
  let solver : GM Int → Option (List Nat) → Option (Option (List Nat)) := fun sub _ =>
    if h : ∃ y, ∃ q, BuiltModel sub q ∧ q.Labeling y ∧ ∀ z, q.Labeling z → decide (q.energy intAdd z < q.energy intAdd y) = false then some (some h.choose) else none
  have hex : Exact intAdd (fun a b => decide (a < b)) solver := by
    intro sub q hb h2 _ start _
    have h : ∃ y, ∃ q, BuiltModel sub q ∧ q.Labeling y ∧ ∀ z, q.Labeling z → decide (q.energy intAdd z < q.energy intAdd y) = false := by
      obtain ⟨y, h1, h3⟩ := key sub q hb h2
      exact ⟨y, q, hb, h1, h3⟩
    obtain ⟨q', b1, b2, b3⟩ := h.choose_spec
    have hlab : ∀ z, q.Labeling z ↔ q'.Labeling z := by
      intro z
      have : q.numLabels = q'.numLabels := by rw [← hb.represents.labels, b1.represents.labels]
      unfold Problem.Labeling
      rw [this]
    have hen : ∀ z, q.Labeling z → q.energy intAdd z = q'.energy intAdd z := by
      intro z hz
      have e1 := evaluate_spec intAdd hb.represents.toStores z hz
      rw [evaluate_spec intAdd b1.represents.toStores z ((hlab z).mp hz)] at e1
      exact (Option.some.inj e1).symm
    refine ⟨h.choose, by simp only [solver]; rw [dif_pos h], (hlab _).mpr b2, ?_⟩
    intro z hz
    rw [hen z hz, hen _ ((hlab _).mpr b2)]
    exact b3 z ((hlab z).mp hz)
  refine ⟨solver, hex, ?_⟩
  intro sub q hb h2 hn start hs
  obtain ⟨y, h1, h3, _⟩ := hex sub q hb h2 hn start hs
  exact ⟨y, h1, h3⟩

/-- On this model, HlFusionMover with the LazyFlipper finds (2,1,1,0), which is better than both arguments. -/
example : ∃ gm m', BuiltModel gm (builtAfter fusionOps).problem ∧
    hlFuse ⟨intAddSub, false, fun a b => decide (a < b), fun _ => false, fun _ => false⟩ 2 (Fusion.construct gm) [0, 1, 0, 0] [2, 1, 1, 1] [0, 0, 0, 0] 15 11 0 = some (true, [2, 1, 1, 0], 7, m') := by
  obtain ⟨c, h1⟩ : ∃ c, (Client.init 1).run (fun _ _ => false) fusionOps = .ok () c := ⟨_, rfl⟩
  refine ⟨c.gm, ?_⟩
  cases h1
  exact ⟨_, ⟨1, _, fusionOps, _, eqvSound_false, fusionOps_valid, rfl, rfl, rfl⟩, rfl⟩

/-! ### Violations -/

/-- C70 is violated for a solver with the status UNKNOWN (for example, one that reaches its time limit before it has a labeling): if the second argument is better, then `fuse` returns the value of
the second argument, but the result is the first argument. Here the value returned is 11 and the result has the value 15. -/
theorem C70_violated_unknown : ∃ (gm : GM Int) (s : Setup Int), BuiltModel gm (builtAfter fusionOps).problem ∧
    setup (fun a b => decide (a < b)) (Fusion.construct gm) [0, 1, 0, 0] [2, 1, 1, 1] [0, 0, 0, 0] 15 11 = some s ∧
    ∀ warmStart, ∃ s', fuse intAdd (fun a b => decide (a < b)) (fun _ _ => some none) warmStart s = some (11, s') ∧ s'.argResult = [0, 1, 0, 0] ∧
      gm.evaluate intAdd [2, 1, 1, 1] = some 11 ∧ gm.evaluate intAdd s'.argResult = some 15 := by
  obtain ⟨c, h1⟩ : ∃ c, (Client.init 1).run (fun _ _ => false) fusionOps = .ok () c := ⟨_, rfl⟩
  refine ⟨c.gm, ?_⟩
  cases h1
  refine ⟨_, ⟨1, _, fusionOps, _, eqvSound_false, fusionOps_valid, rfl, rfl, rfl⟩, rfl, ?_⟩
  intro w
  exact ⟨_, rfl, rfl, rfl, rfl⟩

end OpenGM
