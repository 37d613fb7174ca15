import Verif.Lemmas.AlphaBetaSwap
import Verif.Lemmas.ICM
import Verif.Props.AlphaExpansion
/-
C65: alpha-beta-swap.
-/
namespace OpenGM
namespace AlphaBetaSwap
open Spec GraphCut
open AlphaExpansion (maxStateOf_uniform labeling_zero energy_evaluate forall₂_mem_left forall₂_mem_right)
variable {V : Type} [CommRing V] [LinearOrder V]

/-- The models of the theorems: every variable has `L` labels, the terms have order at most two and, for Minimizer, satisfy f(a,a) + f(b,b) ≤ f(a,b) + f(b,a) (for Maximizer ≥);
the solver is exact. -/
structure SwapSuitable (acc : Acc) (solver : Network V → List Bool → List Bool) (gm : GM V) (p : Problem V) (L : Nat) : Prop where
  kind : acc ≠ .other
  built : BuiltModel gm p
  nonempty : p.numLabels ≠ []
  positive : 0 < L
  labels : ∀ n ∈ p.numLabels, n = L
  pairwise : ∀ t ∈ p.terms, t.vars.length ≤ 2
  terms : ∀ t ∈ p.terms, if acc = .minimizer then t.SwapSubmodular L else t.SwapSupermodular L
  solver : ExactSolver (fun n => solver n [])

/-- The objects that a user can reach: constructor, `reset`, `setStartingPoint` and `infer` (with any visitor) in any order. -/
inductive Reachable (acc : Acc) (solver : Network V → List Bool → List Bool) (gm : GM V) (p : Problem V) : ABS V → Prop
  | construct {it : Nat} {s : ABS V} (h : construct gm it = .ok () (some s)) : Reachable acc solver gm p s
  | reset {s : ABS V} (hs : Reachable acc solver gm p s) : Reachable acc solver gm p (reset s)
  | start {s s' : ABS V} {x more : List Nat} (hs : Reachable acc solver gm p s) (hx : p.Labeling x) (h : setStartingPoint s (x ++ more) = some s') : Reachable acc solver gm p s'
  | infer {s s' : ABS V} {visit : Nat → Bool} {seen : List (List Nat)} (hs : Reachable acc solver gm p s) (h : infer solver acc visit s = some (s', seen)) :
      Reachable acc solver gm p s'

/-- What holds of all reachable objects. -/
structure Inv (gm : GM V) (p : Problem V) (L : Nat) (s : ABS V) : Prop where
  gm : s.gm = gm
  label : p.Labeling s.label
  maxState : s.maxState = L
  pair : PairOk L (s.alpha, s.beta)

/-- One step: `y` is a best labeling among those that a swap of two labels makes of `x`. -/
def BestSwap (acc : Acc) (p : Problem V) (L : Nat) (x y : List Nat) : Prop :=
  p.Labeling y ∧ ∃ a b, a < b ∧ b < L ∧ SwapMove a b x y ∧ ∀ z, SwapMove a b x z → signed acc (p.energy (sumOp V) y) ≤ signed acc (p.energy (sumOp V) z)

section
variable [IsStrictOrderedRing V] {acc : Acc} {solver : Network V → List Bool → List Bool} {gm : GM V} {p : Problem V} {L : Nat}

theorem two_le_of_pairs {c : Nat} (h : c < L * (L - 1) / 2) : 2 ≤ L := by
  rcases L with _ | _ | L
  · simp at h
  · simp at h
  · omega

theorem loop_spec (h : SwapSuitable acc solver gm p L) (visit : Nat → Bool) : ∀ (it count : Nat) (energy : V) (v2n : List Nat) (k : Nat) (s : ABS V), Inv gm p L s →
    v2n.length = s.label.length → ∃ s' seen, loop solver acc visit it count energy v2n k s = some (s', seen) ∧ Inv gm p L s' ∧
      (s.label :: seen).IsChain (BestSwap acc p L) ∧ (s.label :: seen).getLast? = some s'.label ∧ seen.length ≤ it := by
  have hs := h.built.represents.toStores
  intro it
  induction it with
  | zero => intro count energy v2n k s hi _; exact ⟨s, [], rfl, hi, by simp, by simp, by simp⟩
  | succ it ih =>
    intro count energy v2n k s hi hv
    obtain ⟨g, m, lb, al, be, ms⟩ := s
    obtain ⟨h1, hlab, h3, hp⟩ := hi
    simp only at h1 hlab h3 hp hv
    subst h1 h3
    rw [loop]
    by_cases hc : count < ms * (ms - 1) / 2
    · rw [if_pos hc]
      have hL := two_le_of_pairs hc
      have hn := next_ok hL hp
      simp only [next] at hn
      simp only
      obtain ⟨v2n', r, e1, e2, e3, e4⟩ := swap_spec h.kind hs h.labels h.pairwise h.terms lb hlab v2n hv _ _ (lt_trans hn.1 hn.2) hn.2 (ne_of_lt hn.1) solver h.solver
      rw [e1]
      cases r with
      | none =>
        simp only
        obtain ⟨s', seen, a1, a2, a3, a4, a5⟩ := ih count energy v2n' k ⟨g, m, lb, (increment ms al be).1, (increment ms al be).2, ms⟩ ⟨rfl, hlab, rfl, Or.inr hn⟩ e2
        exact ⟨s', seen, a1, a2, a3, a4, by omega⟩
      | some label =>
        simp only
        obtain ⟨f1, f2, f3⟩ := e4 label rfl
        rw [energy_evaluate hs f1]
        simp only
        have hstep : BestSwap acc p ms lb label := ⟨f1, _, _, hn.1, hn.2, f2, f3⟩
        have hi' : Inv g p ms ⟨g, m, label, (increment ms al be).1, (increment ms al be).2, ms⟩ := ⟨rfl, f1, rfl, Or.inr hn⟩
        by_cases hvis : visit k = true
        · rw [if_pos hvis]
          exact ⟨_, _, rfl, hi', List.IsChain.cons_cons hstep (by simp), by simp, by simp⟩
        · rw [if_neg hvis]
          have fin : ∀ (count' : Nat) (energy' : V), ∃ s' seen, loop solver acc visit it count' energy' v2n' (k + 1)
              ⟨g, m, label, (increment ms al be).1, (increment ms al be).2, ms⟩ = some (s', seen) ∧ Inv g p ms s' ∧
              (lb :: label :: seen).IsChain (BestSwap acc p ms) ∧ (lb :: label :: seen).getLast? = some s'.label ∧ (label :: seen).length ≤ it + 1 := by
            intro count' energy'
            obtain ⟨s', seen, a1, a2, a3, a4, a5⟩ := ih count' energy' v2n' (k + 1) _ hi' (by rw [e2, ← f2.1])
            exact ⟨s', seen, a1, a2, List.IsChain.cons_cons hstep a3, by rw [List.getLast?_cons_cons]; exact a4, by simpa using a5⟩
          by_cases hb : better acc (p.energy (sumOp V) label) energy = true
          · rw [if_pos hb]
            obtain ⟨s', seen, a1, a2⟩ := fin count (p.energy (sumOp V) label)
            rw [a1]
            exact ⟨s', label :: seen, rfl, a2⟩
          · rw [if_neg hb]
            obtain ⟨s', seen, a1, a2⟩ := fin (count + 1) energy
            rw [a1]
            exact ⟨s', label :: seen, rfl, a2⟩
    · rw [if_neg hc]
      exact ⟨_, [], rfl, ⟨rfl, hlab, rfl, hp⟩, by simp, by simp, by simp⟩

/-- If the labels never change, they are the best ones for all pairs that were tried. -/
theorem loop_fix (h : SwapSuitable acc solver gm p L) {visit : Nat → Bool} (hvisit : ∀ k, visit k = false) : ∀ (m it count : Nat) (energy : V) (v2n : List Nat) (k : Nat) (s s' : ABS V)
    (seen : List (List Nat)), Inv gm p L s → v2n.length = s.label.length → m ≤ it → count + m ≤ L * (L - 1) / 2 →
    loop solver acc visit it count energy v2n k s = some (s', seen) → (∀ x ∈ seen, x = s.label) →
    ∀ j, j < m → ∀ y, SwapMove ((next L)^[j + 1] (s.alpha, s.beta)).1 ((next L)^[j + 1] (s.alpha, s.beta)).2 s.label y →
      signed acc (p.energy (sumOp V) s.label) ≤ signed acc (p.energy (sumOp V) y) := by
  have hs := h.built.represents.toStores
  intro m
  induction m with
  | zero => intro _ _ _ _ _ _ _ _ _ _ _ _ _ _ j hj; omega
  | succ m ih =>
    intro it count energy v2n k s s' seen hi hv hm hcm hloop hseen j hj y hy
    obtain ⟨it, rfl⟩ : ∃ n, it = n + 1 := ⟨it - 1, by omega⟩
    obtain ⟨g, mi, lb, al, be, ms⟩ := s
    obtain ⟨h1, hlab, h3, hp⟩ := hi
    simp only at h1 hlab h3 hp hv hseen hy ⊢
    subst h1 h3
    have hc : count < ms * (ms - 1) / 2 := by omega
    rw [loop, if_pos hc] at hloop
    have hL := two_le_of_pairs hc
    have hn := next_ok hL hp
    simp only [next] at hn
    simp only at hloop
    obtain ⟨v2n', r, e1, e2, e3, e4⟩ := swap_spec h.kind hs h.labels h.pairwise h.terms lb hlab v2n hv _ _ (lt_trans hn.1 hn.2) hn.2 (ne_of_lt hn.1) solver h.solver
    rw [e1] at hloop
    cases r with
    | none =>
      simp only at hloop
      cases j with
      | zero => rw [e3 rfl y hy]
      | succ j => exact ih it count energy v2n' k _ s' seen ⟨rfl, hlab, rfl, Or.inr hn⟩ e2 (by omega) (by omega) hloop hseen j (by omega) y hy
    | some label =>
      simp only at hloop
      obtain ⟨f1, f2, f3⟩ := e4 label rfl
      rw [energy_evaluate hs f1] at hloop
      simp only at hloop
      rw [if_neg (by rw [hvisit]; simp)] at hloop
      have next' : ∀ (count' : Nat) (energy' : V) (s2 : ABS V) (seen2 : List (List Nat)), count' + m ≤ ms * (ms - 1) / 2 → loop solver acc visit it count' energy' v2n' (k + 1)
          ⟨g, mi, label, (increment ms al be).1, (increment ms al be).2, ms⟩ = some (s2, seen2) → seen = label :: seen2 →
          signed acc (p.energy (sumOp V) lb) ≤ signed acc (p.energy (sumOp V) y) := by
        intro count' energy' s2 seen2 hc' hl2 heq
        subst heq
        have hl0 : label = lb := hseen label (by simp)
        subst hl0
        cases j with
        | zero => exact f3 y hy
        | succ j =>
          exact ih it count' energy' v2n' (k + 1) _ s2 seen2 ⟨rfl, hlab, rfl, Or.inr hn⟩ e2 (by omega) hc' hl2 (fun x hx => hseen x (by simp [hx])) j (by omega) y hy
      by_cases hb : better acc (p.energy (sumOp V) label) energy = true
      · rw [if_pos hb] at hloop
        split at hloop
        · cases hloop
        · next s2 seen2 hl2 =>
          simp only [Option.some.injEq, Prod.mk.injEq] at hloop
          exact next' _ _ s2 seen2 (by omega) hl2 hloop.2.symm
      · rw [if_neg hb] at hloop
        split at hloop
        · cases hloop
        · next s2 seen2 hl2 =>
          simp only [Option.some.injEq, Prod.mk.injEq] at hloop
          exact next' _ _ s2 seen2 (by omega) hl2 hloop.2.symm

theorem construct_inv (h : SwapSuitable acc solver gm p L) (it : Nat) : ∃ s, construct gm it = .ok () (some s) ∧ Inv gm p L s ∧ s.label = List.replicate p.numLabels.length 0 ∧
    s.maxNumberOfIterations = it := by
  have hs := h.built.represents.toStores
  have hl := hs.labels
  have hfac : gm.factors.any (fun f => decide (2 < f.visSize)) = false := by
    rw [List.any_eq_false]
    intro f hf
    obtain ⟨t, ht, hm⟩ := forall₂_mem_left hs.factors f hf
    have := h.pairwise t ht
    rw [hm.visSize]
    simp; omega
  have hn : gm.numberOfVariables = p.numLabels.length := by rw [← hl]; rfl
  unfold construct
  simp only [hfac]
  refine ⟨_, rfl, ⟨rfl, ?_, maxStateOf_uniform (by rw [hl]; exact h.nonempty) (by rw [hl]; exact h.labels), Or.inl rfl⟩, by rw [hn], rfl⟩
  simp only [hn]
  exact labeling_zero h.positive h.labels

theorem Reachable.inv (h : SwapSuitable acc solver gm p L) {s : ABS V} (hr : Reachable acc solver gm p s) : Inv gm p L s := by
  have hst := h.built.represents.toStores
  induction hr with
  | construct hc =>
    obtain ⟨s', e, hinv, _⟩ := construct_inv h _
    rw [e] at hc
    injection hc with _ hc
    injection hc with hc
    exact hc ▸ hinv
  | reset hs ih =>
    refine ⟨ih.gm, ?_, ih.maxState, Or.inl rfl⟩
    simp only [AlphaBetaSwap.reset, ih.label.1]
    exact labeling_zero h.positive h.labels
  | start hs hx hc ih =>
    rename_i s s' x more
    unfold setStartingPoint at hc
    split at hc
    · injection hc with hc
      subst hc
      have hn : s.gm.numberOfVariables = p.numLabels.length := by rw [ih.gm, ← hst.labels]; rfl
      refine ⟨ih.gm, ?_, ih.maxState, ih.pair⟩
      simp only [hn, ← hx.1, List.take_left]
      exact hx
    · exact absurd hc (by simp)
  | infer hs hc ih =>
    rename_i s s' visit seen
    unfold AlphaBetaSwap.infer at hc
    rw [ih.gm, energy_evaluate hst ih.label] at hc
    simp only at hc
    obtain ⟨s2, seen2, a1, a2, _⟩ := loop_spec h visit s.maxNumberOfIterations 0 (p.energy (sumOp V) s.label) (List.replicate gm.numberOfVariables 0) 0 s ih
      (by simp only [List.length_replicate]; rw [ih.label.1, ← hst.labels]; rfl)
    rw [a1] at hc
    injection hc with hc
    injection hc with hc _
    exact hc ▸ a2

/-- C65, each step. Whatever the user has called before, and with any visitor, a call of `infer` ends after at most `maxNumberOfIterations_` steps without access out of range;
every labeling it passes through is a best one among those that a swap of two labels makes of the one before; so the energy never gets worse.

Missing from the full property: optimality of the last labeling among all swaps (`C65_violated_early`; `C65_fixpoint` is what holds instead), models with different numbers of labels
(`C65_violated_labels`), terms that are not suitable for the minimum cut (only an assertion guards them). -/
theorem C65_swap_partial (h : SwapSuitable acc solver gm p L) (visit : Nat → Bool) {s : ABS V} (hr : Reachable acc solver gm p s) :
    p.Labeling (arg s) ∧ ∃ s' seen, infer solver acc visit s = some (s', seen) ∧ (arg s :: seen).IsChain (BestSwap acc p L) ∧ (arg s :: seen).getLast? = some (arg s') ∧
      seen.length ≤ s.maxNumberOfIterations ∧ signed acc (p.energy (sumOp V) (arg s')) ≤ signed acc (p.energy (sumOp V) (arg s)) := by
  have hst := h.built.represents.toStores
  have hi := hr.inv h
  refine ⟨hi.label, ?_⟩
  unfold infer
  rw [hi.gm, energy_evaluate hst hi.label]
  simp only
  obtain ⟨s', seen, a1, a2, a3, a4, a5⟩ := loop_spec h visit s.maxNumberOfIterations 0 (p.energy (sumOp V) s.label) (List.replicate gm.numberOfVariables 0) 0 s hi
    (by simp only [List.length_replicate]; rw [hi.label.1, ← hst.labels]; rfl)
  refine ⟨s', seen, a1, a3, a4, a5, ?_⟩
  have key : ∀ (l : List (List Nat)) (x y : List Nat), (x :: l).IsChain (BestSwap acc p L) → (x :: l).getLast? = some y →
      signed acc (p.energy (sumOp V) y) ≤ signed acc (p.energy (sumOp V) x) := by
    intro l
    induction l with
    | nil => intro x y _ h; simp at h; rw [h]
    | cons z l ih =>
      intro x y hc hlast
      rw [List.isChain_cons_cons] at hc
      rw [List.getLast?_cons_cons] at hlast
      obtain ⟨⟨_, a, b, _, _, _, hbest⟩, hc2⟩ := hc
      exact le_trans (ih z y hc2 hlast) (hbest x (SwapMove.refl a b x))
  exact key seen _ _ a3 a4

/-- C65, the end: if a call of `infer` that no visitor stops, with at least as many iterations as there are pairs of labels, changes nothing, then no swap of two labels gives a
better labeling. -/
theorem C65_fixpoint (h : SwapSuitable acc solver gm p L) {s s' : ABS V} (hr : Reachable acc solver gm p s) {seen : List (List Nat)}
    (hit : L * (L - 1) / 2 ≤ s.maxNumberOfIterations) (hinf : infer solver acc (fun _ => false) s = some (s', seen)) (hfix : ∀ x ∈ seen, x = arg s) {a b : Nat} (hab : a < b) (hb : b < L)
    {y : List Nat} (hy : SwapMove a b (arg s) y) : signed acc (p.energy (sumOp V) (arg s)) ≤ signed acc (p.energy (sumOp V) y) := by
  have hst := h.built.represents.toStores
  have hi := hr.inv h
  unfold infer at hinf
  rw [hi.gm, energy_evaluate hst hi.label] at hinf
  simp only at hinf
  obtain ⟨k, k1, k2⟩ := meet (by omega : 2 ≤ L) hi.pair hab hb
  exact loop_fix h (fun _ => rfl) (L * (L - 1) / 2) _ 0 _ _ 0 s s' seen hi (by simp only [List.length_replicate]; rw [hi.label.1, ← hst.labels]; rfl) hit (by omega) hinf hfix k k1 y
    (by rw [k2]; exact hy)

/-- `setStartingPoint` takes as many labels as there are variables; the next call of `infer` starts from there. -/
theorem C65_start (h : SwapSuitable acc solver gm p L) {s : ABS V} (hr : Reachable acc solver gm p s) {x : List Nat} (hx : p.Labeling x) (more : List Nat) :
    ∃ s', setStartingPoint s (x ++ more) = some s' ∧ arg s' = x ∧ Reachable acc solver gm p s' := by
  have hn : s.gm.numberOfVariables = x.length := by
    rw [(hr.inv h).gm, hx.1, ← h.built.represents.toStores.labels]; rfl
  have e : setStartingPoint s (x ++ more) = some { s with label := x } := by
    unfold setStartingPoint
    rw [if_pos (by simp [hn]), hn, List.take_left]
  exact ⟨_, e, rfl, .start hr hx e⟩

/-- The constructor accepts such a model (all labels are 0), and throws if a term has order three or more. -/
theorem C65_construct (gm : GM V) (p : Problem V) (hb : BuiltModel gm p) (it : Nat) :
    ((∀ t ∈ p.terms, t.vars.length ≤ 2) → ∃ s, construct gm it = .ok () (some s) ∧ arg s = List.replicate p.numLabels.length 0 ∧ arg (reset s) = arg s) ∧
    ((∃ t ∈ p.terms, 2 < t.vars.length) → construct gm it = .throw none) := by
  have hs := hb.represents.toStores
  have hn : gm.numberOfVariables = p.numLabels.length := by rw [← hs.labels]; rfl
  constructor
  · intro ho
    have hfac : gm.factors.any (fun f => decide (2 < f.visSize)) = false := by
      rw [List.any_eq_false]
      intro f hf
      obtain ⟨t, ht, hm⟩ := forall₂_mem_left hs.factors f hf
      have := ho t ht
      rw [hm.visSize]
      simp; omega
    unfold construct
    simp only [hfac]
    exact ⟨_, rfl, by simp only [arg, hn], by simp [arg, reset]⟩
  · rintro ⟨t, ht, hlen⟩
    unfold construct
    rw [if_pos]
    rw [List.any_eq_true]
    obtain ⟨f, hf, hm⟩ := forall₂_mem_right hs.factors t ht
    exact ⟨f, hf, by rw [hm.visSize]; simpa using hlen⟩

end

/-! ### Witnesses -/

/-- All labelings that a swap of `a` and `b` makes of the given one. -/
def swapsOf (a b : Nat) : List Nat → List (List Nat)
  | [] => [[]]
  | l :: ls => (swapsOf a b ls).flatMap (fun y => if l = a ∨ l = b then [a :: y, b :: y] else [l :: y])

theorem mem_swapsOf {a b : Nat} : ∀ {x y : List Nat}, SwapMove a b x y → y ∈ swapsOf a b x := by
  intro x
  induction x with
  | nil =>
    intro y h
    have := h.1
    simp only [List.length_nil, List.length_eq_zero_iff] at this
    simp [swapsOf, this]
  | cons l x ih =>
    intro y h
    match y, h with
    | [], h => exact absurd h.1 (by simp)
    | m :: y, h =>
      have h1 : y ∈ swapsOf a b x := ih ⟨by simpa using h.1, fun v l' m' hl hm => h.2 (v + 1) l' m' (by simpa using hl) (by simpa using hm)⟩
      have h0 := h.2 0 l m rfl rfl
      rw [swapsOf, List.mem_flatMap]
      refine ⟨y, h1, ?_⟩
      split at h0
      · next hl =>
        rw [if_pos hl]
        rcases h0 with rfl | rfl <;> simp
      · next hl =>
        rw [if_neg hl, h0]
        simp

/-- A swap with a unique best result gives this result. -/
theorem swap_unique [IsStrictOrderedRing V] {acc : Acc} {solver : Network V → List Bool → List Bool} {gm : GM V} {p : Problem V} {L : Nat} (h : SwapSuitable acc solver gm p L)
    {label : List Nat} (hlab : p.Labeling label) {v2n : List Nat} (hv2n : v2n.length = label.length) {a b : Nat} (hab : a < b) (hb : b < L) {best : List Nat}
    (hsel : ∃ l ∈ label, l = a ∨ l = b) (hmove : SwapMove a b label best)
    (hbest : ∀ y ∈ swapsOf a b label, y ≠ best → signed acc (p.energy (sumOp V) best) < signed acc (p.energy (sumOp V) y)) :
    ∃ v2n', swap solver acc gm label v2n a b = some (v2n', some best) ∧ v2n'.length = best.length ∧ p.Labeling best := by
  obtain ⟨v2n', r, e1, e2, e3, e4⟩ := swap_spec h.kind h.built.represents.toStores h.labels h.pairwise h.terms label hlab v2n hv2n a b (by omega) hb (by omega) solver h.solver
  have hr : ∃ l', r = some l' := by
    cases r with
    | some l' => exact ⟨l', rfl⟩
    | none =>
      exfalso
      obtain ⟨l, hl, hl2⟩ := hsel
      have h1 : SwapMove a b label (label.map (fun l => if l = a then b else if l = b then a else l)) := by
        refine ⟨by simp, ?_⟩
        intro v l' m hl' hm
        simp only [List.getElem?_map, hl', Option.map_some, Option.some.injEq] at hm
        subst hm
        split
        · next h => rcases h with rfl | rfl
                    · simp
                    · by_cases hq : l' = a <;> simp [hq]
        · next h => simp only [not_or] at h; simp [h.1, h.2]
      have h2 := e3 rfl _ h1
      obtain ⟨v, hv, rfl⟩ := List.getElem_of_mem hl
      have h3 := congrArg (fun z => z[v]?) h2
      simp only [List.getElem?_map, List.getElem?_eq_getElem hv, Option.map_some, Option.some.injEq] at h3
      rcases hl2 with h4 | h4 <;> rw [h4] at h3
      · simp at h3; omega
      · simp at h3; omega
  obtain ⟨l', rfl⟩ := hr
  obtain ⟨f1, f2, f3⟩ := e4 l' rfl
  have : l' = best := by
    by_contra hne
    exact absurd (f3 best hmove) (not_le.mpr (hbest l' (mem_swapsOf f2) hne))
  subst this
  exact ⟨v2n', e1, by rw [e2, ← f2.1], f1⟩

/-- Two variables with three labels. -/
def swapOps : List (BuildOp Int) :=
  [.addVariable 3, .addVariable 3,
   .addFunction 0 ⟨[3], fun c => if c = [1] then 2 else 0⟩,
   .addFunction 0 ⟨[3], fun c => if c = [0] then 4 else if c = [1] then 2 else 0⟩,
   .addFunction 0 ⟨[3, 3], fun c => if c = [0, 2] then 1 else if c = [1, 0] then 1 else if c = [1, 2] then 1 else if c = [2, 0] then 1 else if c = [2, 1] then 2 else 0⟩,
   .addFactor 0 [0], .addFactor 1 [1], .addFactor 2 [0, 1]]

theorem swapOps_valid : ValidHistory 1 Built.empty swapOps := by
  simp [swapOps, ValidHistory, BuildOp.Valid, BuildOp.apply, Built.empty, restrict]

theorem swapOps_suitable {gm : GM Int} (hb : BuiltModel gm (builtAfter swapOps).problem) {solver : Network Int → List Bool → List Bool}
    (hs : ExactSolver (fun n => solver n [])) : SwapSuitable .minimizer solver gm (builtAfter swapOps).problem 3 := by
  refine ⟨by decide, hb, by decide, by decide, by decide, ?_, ?_, hs⟩
  · intro t ht
    simp [builtAfter, swapOps, BuildOp.apply, Built.empty, Built.problem] at ht
    rcases ht with rfl | rfl | rfl <;> simp
  · intro t ht
    rw [if_pos rfl]
    simp [builtAfter, swapOps, BuildOp.apply, Built.empty, Built.problem] at ht
    rcases ht with rfl | rfl | rfl <;> intro hl
    · simp at hl
    · simp at hl
    · intro a b ha hb
      match a, ha, b, hb with
      | 0, _, 0, _ => decide
      | 0, _, 1, _ => decide
      | 0, _, 2, _ => decide
      | 1, _, 0, _ => decide
      | 1, _, 1, _ => decide
      | 1, _, 2, _ => decide
      | 2, _, 0, _ => decide
      | 2, _, 1, _ => decide
      | 2, _, 2, _ => decide

/-- The hypotheses of `C65_swap_partial` and `C65_fixpoint` are met. -/
example : ∃ gm solver s, SwapSuitable .minimizer solver gm (builtAfter swapOps).problem 3 ∧ Reachable .minimizer solver gm (builtAfter swapOps).problem s ∧
    3 * (3 - 1) / 2 ≤ s.maxNumberOfIterations := by
  obtain ⟨gm, hb⟩ := builtModel_exists swapOps_valid
  obtain ⟨f, hs⟩ := exactSolver_exists (V := Int)
  have h := swapOps_suitable (solver := fun n _ => f n) hb hs
  obtain ⟨s, s1, _, _, s4⟩ := construct_inv h 1000
  exact ⟨gm, _, s, h, .construct s1, by rw [s4]; decide⟩

/-- C65 is violated for the last labeling: `infer` counts the steps without improvement, but does not start again after an improvement. On this model, started at (0,1), it ends after
four steps with (0,2) and energy 1, although there are 1000 iterations and one swap of 0 and 2 leads to (2,2) with energy 0; for every exact solver. -/
theorem C65_violated_early : ∃ (gm : GM Int) (p : Problem Int), BuiltModel gm p ∧ ∀ solver : Network Int → List Bool → List Bool, ExactSolver (fun n => solver n []) →
    SwapSuitable .minimizer solver gm p 3 ∧ ∃ s0 s s', construct gm 1000 = .ok () (some s0) ∧ setStartingPoint s0 [0, 1] = some s ∧
      infer solver .minimizer (fun _ => false) s = some (s', [[0, 1], [0, 1], [0, 2], [0, 2]]) ∧ arg s' = [0, 2] ∧ p.energy (sumOp Int) [0, 2] = 1 ∧
      SwapMove 0 2 [0, 2] [2, 2] ∧ p.energy (sumOp Int) [2, 2] = 0 := by
  obtain ⟨gm, hb⟩ := builtModel_exists swapOps_valid
  refine ⟨gm, _, hb, fun solver hs => ?_⟩
  have h := swapOps_suitable hb hs
  have hst := hb.represents.toStores
  obtain ⟨s0, e0, i0, _, i4⟩ := construct_inv h 1000
  have hn : gm.numberOfVariables = 2 := by
    show gm.numLabels.length = 2
    rw [hst.labels]
    rfl
  have l0 : (builtAfter swapOps).problem.Labeling [0, 1] := by rw [← Icm.mem_labelings]; decide
  have move : ∀ (a b : Nat) (x y : List Nat), y.length = x.length → (∀ v, v < x.length → if x.getD v 0 = a ∨ x.getD v 0 = b then y.getD v 0 = a ∨ y.getD v 0 = b else y.getD v 0 = x.getD v 0) →
      SwapMove a b x y := by
    intro a b x y hl hv
    refine ⟨hl, fun v l m h1 h2 => ?_⟩
    have := hv v (List.getElem?_eq_some_iff.mp h1).1
    simpa [List.getD, h1, h2] using this
  obtain ⟨v1, a1, a2, a3⟩ := swap_unique h l0 (v2n := [0, 0]) rfl (a := 0) (b := 1) (by decide) (by decide) (best := [0, 1]) (by decide) (move _ _ _ _ rfl (by decide)) (by decide)
  obtain ⟨v2, b1, b2, b3⟩ := swap_unique h a3 (v2n := v1) a2 (a := 0) (b := 2) (by decide) (by decide) (best := [0, 1]) (by decide) (move _ _ _ _ rfl (by decide)) (by decide)
  obtain ⟨v3, c1, c2, c3⟩ := swap_unique h b3 (v2n := v2) b2 (a := 1) (b := 2) (by decide) (by decide) (best := [0, 2]) (by decide) (move _ _ _ _ rfl (by decide)) (by decide)
  obtain ⟨v4, d1, d2, d3⟩ := swap_unique h c3 (v2n := v3) c2 (a := 0) (b := 1) (by decide) (by decide) (best := [0, 2]) (by decide) (move _ _ _ _ rfl (by decide)) (by decide)
  have ev1 : gm.evaluate (sumOp Int) [0, 1] = some 2 := energy_evaluate hst l0
  have ev2 : gm.evaluate (sumOp Int) [0, 2] = some 1 := energy_evaluate hst c3
  obtain ⟨g, m, lb, al, be, ms⟩ := s0
  have q1 := i0.gm
  have q2 := i0.maxState
  simp only at q1 q2 i4
  subst q1 q2 i4
  have q3 : al = 0 ∧ be = 0 := by
    unfold construct at e0
    split at e0
    · cases e0
    · simp only [Outcome.ok.injEq, Option.some.injEq, ABS.mk.injEq, true_and] at e0
      exact ⟨e0.2.1.symm, e0.2.2.1.symm⟩
  obtain ⟨rfl, rfl⟩ := q3
  refine ⟨h, _, ⟨g, 1000, [0, 1], 0, 0, 3⟩, ⟨g, 1000, [0, 2], 0, 1, 3⟩, e0, ?_, ?_, rfl, rfl, move _ _ _ _ rfl (by decide), rfl⟩
  · unfold setStartingPoint
    simp only [hn]
    rfl
  · unfold infer
    simp only [ev1, hn]
    rw [show List.replicate 2 0 = [0, 0] from rfl]
    rw [loop]
    simp only [show increment 3 0 0 = (0, 1) from rfl, a1, ev1]
    rw [if_pos (by decide), if_neg (by simp), if_neg (by decide), loop]
    simp only [show increment 3 0 1 = (0, 2) from rfl, b1, ev1]
    rw [if_pos (by decide), if_neg (by simp), if_neg (by decide), loop]
    simp only [show increment 3 0 2 = (1, 2) from rfl, c1, ev2]
    rw [if_pos (by decide), if_neg (by simp), if_pos (by decide), loop]
    simp only [show increment 3 1 2 = (0, 1) from rfl, d1, ev2]
    rw [if_pos (by decide), if_neg (by simp), if_neg (by decide), loop]
    rw [if_neg (by simp)]

/-- A variable with one label and one with two. -/
def singleOps : List (BuildOp Int) :=
  [.addVariable 1, .addVariable 2, .addFunction 0 ⟨[1], fun _ => 0⟩, .addFactor 0 [0]]

theorem singleOps_valid : ValidHistory 1 Built.empty singleOps := by
  simp [singleOps, ValidHistory, BuildOp.Valid, BuildOp.apply, Built.empty, restrict]

/-- C65 is violated for models with different numbers of labels, although the constructor accepts them: the value of a factor is read out of range. -/
theorem C65_violated_labels : ∃ (gm : GM Int) (p : Problem Int), BuiltModel gm p ∧ (∀ t ∈ p.terms, t.vars.length ≤ 2 ∧ t.SwapSubmodular 2) ∧
    ∃ s, construct gm 1000 = .ok () (some s) ∧ p.Labeling (arg s) ∧ ∀ solver, infer solver .minimizer (fun _ => false) s = none := by
  obtain ⟨c, h1⟩ : ∃ c, (Client.init 1).run (fun _ _ => false) singleOps = .ok () c := ⟨_, rfl⟩
  refine ⟨c.gm, (builtAfter singleOps).problem, ⟨1, _, singleOps, c, eqvSound_false, singleOps_valid, h1, rfl, rfl⟩, ?_, ?_⟩
  · intro t ht
    simp [builtAfter, singleOps, BuildOp.apply, Built.empty, Built.problem] at ht
    subst ht
    exact ⟨by simp, fun h => by simp at h⟩
  · cases h1
    refine ⟨_, rfl, ?_, fun solver => rfl⟩
    rw [← Icm.mem_labelings]
    exact (by decide : [0, 0] ∈ allTuples (builtAfter singleOps).problem.numLabels)

end AlphaBetaSwap
end OpenGM
