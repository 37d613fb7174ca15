import Verif.Lemmas.AlphaExpansion
/-
Property C42: alpha-expansion. Proved for Potts terms; false of the code in general (see the violations at the end).
-/
namespace OpenGM
namespace AlphaExpansion
open Spec GraphCut
variable {V : Type} [CommRing V] [LinearOrder V]

/-- The ways to choose the initial labels that are considered: all except LOCALOPT_LABEL (see `C42_violated_localOpt`). For
RANDOM_LABEL enough random numbers are available. -/
def ValidInit (numVariables : Nat) : Init → Prop
  | .default => True
  | .random rands => numVariables ≤ rands.length
  | .localOpt => False
  | .explicit _ => True

/-- The orders of labels that are considered: `random_shuffle` permutes, an explicit order consists of labels. -/
def ValidOrder (L : Nat) : Order → Prop
  | .default => True
  | .random shuffle => ∀ l, (shuffle l).Perm l
  | .explicit l => l.length = L ∧ ∀ a ∈ l, a < L

/-- The objects that a user can reach: constructor, `reset`, `setStartingPoint` and `infer` in any order. -/
inductive Reachable (solver : Network V → List Bool → List Bool) (inf scale : V) (gm : GM V) (p : Problem V) (L : Nat) : AE V → Prop
  | construct {steps : Nat} {ini : Init} {ord : Order} {ae : AE V} (hi : ValidInit p.numLabels.length ini) (ho : ValidOrder L ord)
      (h : construct gm steps scale ini ord = .ok () (some ae)) : Reachable solver inf scale gm p L ae
  | reset {ae ae' : AE V} {ini : Init} {ord : Order} (ha : Reachable solver inf scale gm p L ae)
      (hi : ValidInit p.numLabels.length ini) (ho : ValidOrder L ord) (h : reset ae ini ord = some ae') : Reachable solver inf scale gm p L ae'
  | start {ae ae' : AE V} {x : List Nat} (ha : Reachable solver inf scale gm p L ae) (hx : p.Labeling x)
      (h : setStartingPoint ae x = some ae') : Reachable solver inf scale gm p L ae'
  | infer {ae ae' : AE V} {seen : List (List Nat)} (ha : Reachable solver inf scale gm p L ae)
      (h : infer solver inf ae = some (ae', seen)) : Reachable solver inf scale gm p L ae'

/-- What holds of all reachable objects. -/
structure Inv (scale : V) (gm : GM V) (p : Problem V) (L : Nat) (ae : AE V) : Prop where
  gm : ae.gm = gm
  scale : ae.scale = scale
  label : p.Labeling ae.label
  maxState : ae.maxState = L
  length : ae.labelList.length = L
  list : ∀ a ∈ ae.labelList, a < L
  alpha : ae.alpha < L

omit [CommRing V] [LinearOrder V] in
theorem maxStateOf_uniform {gm : GM V} {L : Nat} (hne : gm.numLabels ≠ []) (h : ∀ n ∈ gm.numLabels, n = L) : maxStateOf gm = L := by
  unfold maxStateOf
  have key : ∀ (l : List Nat) (m : Nat), (∀ n ∈ l, n = L) → m ≤ L →
      l.foldl (fun m n => if m < n then n else m) m = if l = [] then m else L := by
    intro l
    induction l with
    | nil => intro m _ _; rfl
    | cons n l ih =>
      intro m hl hm
      have hn := hl n (by simp)
      subst hn
      rw [List.foldl_cons, ih _ (fun x hx => hl x (by simp [hx]))]
      · by_cases h1 : l = []
        · simp only [h1, if_true]
          split
          · simp
          · simp; omega
        · simp [h1]
      · split
        · exact le_refl _
        · exact hm
  rw [key _ 0 h (Nat.zero_le _), if_neg hne]

theorem labeling_zero {p : Problem V} {L : Nat} (hL : 0 < L) (h2 : ∀ n ∈ p.numLabels, n = L) :
    p.Labeling (List.replicate p.numLabels.length 0) := by
  refine ⟨by simp, ?_⟩
  intro v l n hv hn
  have := h2 n (List.mem_of_getElem? hn)
  have hl := List.eq_of_mem_replicate (List.mem_of_getElem? hv)
  omega

theorem setRandom_spec {p : Problem V} {L : Nat} (hL : 0 < L) (h2 : ∀ n ∈ p.numLabels, n = L) (rs : List Nat)
    (h : p.numLabels.length ≤ rs.length) : ∃ l, setRandom p.numLabels rs = some l ∧ p.Labeling l := by
  have key : ∀ (ns rs : List Nat), (∀ n ∈ ns, n = L) → ns.length ≤ rs.length →
      ∃ l, setRandom ns rs = some l ∧ l.length = ns.length ∧ ∀ a ∈ l, a < L := by
    intro ns
    induction ns with
    | nil => intro rs _ _; exact ⟨[], by simp [setRandom], rfl, by simp⟩
    | cons n ns ih =>
      intro rs hn hl
      match rs with
      | [] => simp at hl
      | r :: rs =>
        obtain ⟨l, h1, hlen, h3⟩ := ih rs (fun x hx => hn x (by simp [hx])) (by simpa using hl)
        have := hn n (by simp)
        subst this
        refine ⟨r % n :: l, ?_, by simp [hlen], ?_⟩
        · rw [setRandom, if_neg (by omega), h1]
        · intro a ha
          simp only [List.mem_cons] at ha
          rcases ha with rfl | ha
          · exact Nat.mod_lt _ hL
          · exact h3 a ha
  obtain ⟨l, a1, a2, a3⟩ := key _ rs h2 h
  refine ⟨l, a1, a2, ?_⟩
  intro v a n hv hn
  rw [h2 n (List.mem_of_getElem? hn)]
  exact a3 a (List.mem_of_getElem? hv)

theorem setInitialLabel_spec {gm : GM V} {p : Problem V} (hl : gm.numLabels = p.numLabels) (label l : List Nat)
    (hlab : p.Labeling label) : p.Labeling (setInitialLabel gm label l) := by
  unfold setInitialLabel
  split
  · rename_i hlen
    split
    · exact hlab
    · rename_i hany
      simp only [Bool.not_eq_true, List.any_eq_false, decide_eq_true_eq, not_le] at hany
      refine ⟨hlen.trans hlab.1, ?_⟩
      intro v a n hv hn
      have : (a, n) ∈ List.zip l gm.numLabels := by
        rw [hl]
        obtain ⟨hv1, hv2⟩ := List.getElem?_eq_some_iff.mp hv
        obtain ⟨hn1, hn2⟩ := List.getElem?_eq_some_iff.mp hn
        rw [List.mem_iff_getElem]
        exact ⟨v, by simp; omega, by simp [hv2, hn2]⟩
      exact hany _ this
  · exact hlab

theorem resized_nil (n : Nat) : resized [] n = List.replicate n 0 := by simp [resized]
theorem resized_self (l : List Nat) (n : Nat) (h : l.length = n) : resized l n = l := by simp [resized, ← h]

theorem initLabel_spec {gm : GM V} {p : Problem V} {L : Nat} (hL : 0 < L) (hl : gm.numLabels = p.numLabels)
    (h2 : ∀ n ∈ p.numLabels, n = L) (label : List Nat) (hlab : label = [] ∨ p.Labeling label) {ini : Init}
    (hi : ValidInit p.numLabels.length ini) : ∃ l, initLabel gm label ini = some l ∧ p.Labeling l := by
  have hn : gm.numberOfVariables = p.numLabels.length := by rw [← hl]; rfl
  have hr : p.Labeling (resized label gm.numberOfVariables) := by
    rcases hlab with rfl | hlab
    · rw [resized_nil, hn]; exact labeling_zero hL h2
    · rw [resized_self _ _ (by rw [hn]; exact hlab.1)]; exact hlab
  cases ini with
  | default => exact ⟨_, rfl, hr⟩
  | random rs => rw [initLabel, hl]; exact setRandom_spec hL h2 rs hi
  | localOpt => exact absurd hi (by simp [ValidInit])
  | explicit l => exact ⟨_, rfl, setInitialLabel_spec hl _ _ hr⟩

theorem initOrder_spec {L : Nat} (labelList : List Nat) (hll : labelList = [] ∨ labelList.length = L ∧ ∀ a ∈ labelList, a < L) {ord : Order}
    (ho : ValidOrder L ord) : (initOrder L labelList ord).length = L ∧ ∀ a ∈ initOrder L labelList ord, a < L := by
  cases ord with
  | default => exact ⟨by simp [initOrder], by simp [initOrder]⟩
  | random sh =>
    refine ⟨by simp [initOrder, (ho _).length_eq], ?_⟩
    intro a ha
    have := (ho _).mem_iff.mp ha
    simpa using this
  | explicit l => rw [initOrder, if_pos ho.1]; exact ho

theorem energy_evaluate {gm : GM V} {p : Problem V} (hs : Stores gm p) {x : List Nat} (hx : p.Labeling x) :
    gm.evaluate (sumOp V) x = some (p.energy (sumOp V) x) := evaluate_spec (sumOp V) hs x hx

theorem forall₂_mem_left {α β : Type} {R : α → β → Prop} {l : List α} {m : List β} (h : List.Forall₂ R l m) (a : α) (ha : a ∈ l) :
    ∃ b ∈ m, R a b := by
  induction h with
  | nil => simp at ha
  | cons h _ ih =>
    simp only [List.mem_cons] at ha
    rcases ha with rfl | ha
    · exact ⟨_, by simp, h⟩
    · obtain ⟨b, hb, hr⟩ := ih ha
      exact ⟨b, by simp [hb], hr⟩

theorem forall₂_mem_right {α β : Type} {R : α → β → Prop} {l : List α} {m : List β} (h : List.Forall₂ R l m) (b : β) (hb : b ∈ m) :
    ∃ a ∈ l, R a b := forall₂_mem_left (R := fun b a => R a b) h.flip b hb

section
variable [IsStrictOrderedRing V] {gm : GM V} {p : Problem V} {L : Nat}

/-- The constructor succeeds, and does so in a state that satisfies the invariant. -/
theorem construct_inv (hs : Stores gm p) (hL : 0 < L) (hne : p.numLabels ≠ []) (h2 : ∀ n ∈ p.numLabels, n = L)
    (ho : ∀ t ∈ p.terms, t.vars.length ≤ 2) (scale : V) (steps : Nat) {ini : Init} {ord : Order}
    (hi : ValidInit p.numLabels.length ini) (hord : ValidOrder L ord) :
    ∃ ae, construct gm steps scale ini ord = .ok () (some ae) ∧ Inv scale gm p L ae := by
  have hl := hs.labels
  have hfac : gm.factors.any (fun f => decide (2 < f.visSize)) = false := by
    rw [List.any_eq_false]
    intro f hf
    obtain ⟨t, ht, hm⟩ := forall₂_mem_left hs.factors f hf
    have := ho t ht
    rw [hm.visSize]
    simp; omega
  obtain ⟨label, e1, e2⟩ := initLabel_spec hL hl h2 [] (Or.inl rfl) hi
  have hmax : maxStateOf gm = L := maxStateOf_uniform (by rw [hl]; exact hne) (by rw [hl]; exact h2)
  obtain ⟨o1, o2⟩ := initOrder_spec (L := L) [] (Or.inl rfl) hord
  have h0 : (initOrder L [] ord)[0]? = some ((initOrder L [] ord)[0]'(by omega)) := List.getElem?_eq_getElem _
  unfold construct
  simp only [hfac, e1, hmax, h0]
  exact ⟨_, rfl, rfl, rfl, e2, rfl, o1, o2, o2 _ (List.getElem_mem _)⟩

theorem incrementAlpha_inv {scale : V} (hL : 0 < L) {ae : AE V} (hi : Inv scale gm p L ae) {label : List Nat} (hlab : p.Labeling label) :
    ∃ ae', incrementAlpha { ae with label := label } = some ae' ∧ Inv scale gm p L ae' ∧ ae'.label = label := by
  have hlt : (ae.counter + 1) % L < ae.labelList.length := by rw [hi.length]; exact Nat.mod_lt _ hL
  unfold incrementAlpha
  simp only [hi.maxState]
  rw [if_neg (by omega), List.getElem?_eq_getElem hlt]
  exact ⟨_, rfl, ⟨hi.gm, hi.scale, hlab, rfl, hi.length, hi.list, hi.list _ (List.getElem_mem _)⟩, rfl⟩

theorem loop_spec (hs : Stores gm p) (hL : 0 < L) (h2 : ∀ n ∈ p.numLabels, n = L) (ho : ∀ t ∈ p.terms, t.vars.length ≤ 2)
    (hpotts : ∀ t ∈ p.terms, t.IsPotts L) (scale inf : V) (hscale : 0 < scale) (solver : Network V → List Bool → List Bool)
    (hsolver : ExactSolver (fun n => solver n [])) : ∀ (steps count : Nat) (energy : V) (ae : AE V), Inv scale gm p L ae →
    ∃ ae' seen, loop solver inf steps count energy ae = some (ae', seen) ∧ Inv scale gm p L ae' ∧
      (∀ x ∈ seen, p.Labeling x) ∧
      (ae.label :: seen).IsChain (fun x y => p.energy (sumOp V) y ≤ p.energy (sumOp V) x ∧
        ∃ α, α < L ∧ ∀ v, v < x.length → y.getD v 0 = x.getD v 0 ∨ y.getD v 0 = α) ∧
      (ae.label :: seen).getLast? = some ae'.label ∧ seen.length ≤ steps := by
  intro steps
  induction steps with
  | zero =>
    intro count energy ae hi
    exact ⟨ae, [], rfl, hi, by simp, by simp, by simp, by simp⟩
  | succ steps ih =>
    intro count energy ae hi
    rw [loop]
    by_cases hc : ae.maxState ≤ count
    · rw [if_pos hc]
      exact ⟨ae, [], rfl, hi, by simp, by simp, by simp, by simp⟩
    rw [if_neg hc]
    obtain ⟨label, e1, e2, e3, e4⟩ := expand_spec hs h2 ho hpotts ae.label hi.label ae.alpha hi.alpha scale inf hscale solver hsolver
    obtain ⟨ae1, i1, i2, i3⟩ := incrementAlpha_inv hL hi e2
    have e1' : expand solver inf ae.scale ae.gm ae.label ae.alpha = some label := by rw [hi.scale, hi.gm]; exact e1
    have ev : ae.gm.evaluate (sumOp V) label = some (p.energy (sumOp V) label) := by rw [hi.gm]; exact energy_evaluate hs e2
    rw [e1']
    simp only [ev, i1]
    have fin : ∀ (count' : Nat) (energy' : V), ∃ ae' seen, loop solver inf steps count' energy' ae1 = some (ae', seen) ∧ Inv scale gm p L ae' ∧
        (∀ x ∈ label :: seen, p.Labeling x) ∧
        (ae.label :: label :: seen).IsChain (fun x y => p.energy (sumOp V) y ≤ p.energy (sumOp V) x ∧
          ∃ α, α < L ∧ ∀ v, v < x.length → y.getD v 0 = x.getD v 0 ∨ y.getD v 0 = α) ∧
        (ae.label :: label :: seen).getLast? = some ae'.label ∧ seen.length + 1 ≤ steps + 1 := by
      intro count' energy'
      obtain ⟨ae', seen, a1, a2, a3, a4, a5, a6⟩ := ih count' energy' ae1 i2
      rw [i3] at a4 a5
      refine ⟨ae', seen, a1, a2, ?_, ?_, ?_, by omega⟩
      · intro x hx
        simp only [List.mem_cons] at hx
        rcases hx with rfl | hx
        · exact e2
        · exact a3 x hx
      · exact List.IsChain.cons_cons ⟨e3, _, hi.alpha, e4⟩ a4
      · rw [List.getLast?_cons_cons]; exact a5
    by_cases hlt : p.energy (sumOp V) label < energy
    · rw [if_pos hlt]
      obtain ⟨ae', seen, a1, a2, a3, a4, a5, a6⟩ := fin 0 (p.energy (sumOp V) label)
      rw [a1]
      exact ⟨ae', label :: seen, rfl, a2, a3, a4, a5, a6⟩
    · rw [if_neg hlt]
      obtain ⟨ae', seen, a1, a2, a3, a4, a5, a6⟩ := fin (count + 1) energy
      rw [a1]
      exact ⟨ae', label :: seen, rfl, a2, a3, a4, a5, a6⟩

theorem Reachable.inv (hs : Stores gm p) (hL : 0 < L) (hne : p.numLabels ≠ []) (h2 : ∀ n ∈ p.numLabels, n = L)
    (ho : ∀ t ∈ p.terms, t.vars.length ≤ 2)
    (hpotts : ∀ t ∈ p.terms, t.IsPotts L) (scale inf : V) (hscale : 0 < scale) (solver : Network V → List Bool → List Bool)
    (hsolver : ExactSolver (fun n => solver n [])) {ae : AE V} (hr : Reachable solver inf scale gm p L ae) : Inv scale gm p L ae := by
  induction hr with
  | construct hi hord h =>
    obtain ⟨ae', e, hinv⟩ := construct_inv hs hL hne h2 ho scale _ hi hord
    rw [e] at h
    injection h with _ h
    injection h with h
    exact h ▸ hinv
  | reset ha hi hord h ih =>
    rename_i ae ae' ini ord
    unfold AlphaExpansion.reset at h
    obtain ⟨o1, o2⟩ := initOrder_spec ae.labelList (Or.inr ⟨ih.length, ih.list⟩) hord
    obtain ⟨l, e1, e2⟩ : ∃ l, resetLabel ae ini = some l ∧ p.Labeling l := by
      have := initLabel_spec hL (ih.gm ▸ hs.labels) h2 ae.label (Or.inr ih.label) hi
      cases ini with
      | default => exact ⟨_, rfl, by rw [ih.label.1]; exact labeling_zero hL h2⟩
      | random rs => exact this
      | localOpt => exact this
      | explicit l => exact this
    rw [e1] at h
    simp only [ih.maxState] at h
    rw [List.getElem?_eq_getElem (by omega : 0 < (initOrder L ae.labelList ord).length)] at h
    injection h with h
    subst h
    exact ⟨ih.gm, ih.scale, e2, rfl, o1, o2, o2 _ (List.getElem_mem _)⟩
  | start ha hx h ih =>
    rename_i ae ae' x
    unfold setStartingPoint at h
    split at h
    · injection h with h
      subst h
      have hn : ae.gm.numberOfVariables = p.numLabels.length := by rw [ih.gm, ← hs.labels]; rfl
      refine ⟨ih.gm, ih.scale, ?_, ih.maxState, ih.length, ih.list, ih.alpha⟩
      simp only [hn, ← hx.1, List.take_length]
      exact hx
    · exact absurd h (by simp)
  | infer ha h ih =>
    rename_i ae ae' seen
    unfold AlphaExpansion.infer at h
    rw [ih.gm, energy_evaluate hs ih.label] at h
    simp only at h
    obtain ⟨ae2, seen2, a1, a2, _⟩ := loop_spec hs hL h2 ho hpotts scale inf hscale solver hsolver ae.maxNumberOfSteps 0
      (p.energy (sumOp V) ae.label) ae ih
    rw [a1] at h
    injection h with h
    injection h with h _
    exact h ▸ a2

end

/-- C42. A model whose variables have `L` labels each and whose terms have order at most two, those of order two being Potts terms;
an exact solver for minimum cuts. Whatever the user has called before (constructor, `reset`, `setStartingPoint`, `infer`), a call of
`infer` is free of accesses out of range; every labeling it passes through, and the last one, is a labeling of the model, arises from
the one before by changing some variables to one label alpha, and has an energy that is not larger.

Missing from the full property: optimality among the labelings that one expansion can reach, and terms that are metric but not Potts
terms. Both are false of the code: `C42_violated_optimal`, `C42_violated_monotone`. -/
theorem C42_alphaExpansion_partial [IsStrictOrderedRing V] (gm : GM V) (p : Problem V) (hb : BuiltModel gm p) (L : Nat) (hL : 0 < L)
    (hne : p.numLabels ≠ []) (h2 : ∀ n ∈ p.numLabels, n = L) (ho : ∀ t ∈ p.terms, t.vars.length ≤ 2)
    (hpotts : ∀ t ∈ p.terms, t.IsPotts L) (scale inf : V) (hscale : 0 < scale)
    (solver : Network V → List Bool → List Bool) (hsolver : ExactSolver (fun n => solver n []))
    (ae : AE V) (hr : Reachable solver inf scale gm p L ae) :
    p.Labeling (arg ae) ∧
    ∃ ae' seen, infer solver inf ae = some (ae', seen) ∧
      (∀ x ∈ seen, p.Labeling x) ∧
      (arg ae :: seen).IsChain (fun x y => p.energy (sumOp V) y ≤ p.energy (sumOp V) x ∧
        ∃ α, α < L ∧ ∀ v, v < x.length → y.getD v 0 = x.getD v 0 ∨ y.getD v 0 = α) ∧
      (arg ae :: seen).getLast? = some (arg ae') ∧
      p.energy (sumOp V) (arg ae') ≤ p.energy (sumOp V) (arg ae) := by
  have hs := hb.represents.toStores
  have hi := hr.inv hs hL hne h2 ho hpotts scale inf hscale solver hsolver
  refine ⟨hi.label, ?_⟩
  unfold infer
  rw [hi.gm, energy_evaluate hs hi.label]
  simp only
  obtain ⟨ae', seen, a1, a2, a3, a4, a5, a6⟩ := loop_spec hs hL h2 ho hpotts scale inf hscale solver hsolver ae.maxNumberOfSteps 0
      (p.energy (sumOp V) ae.label) ae hi
  refine ⟨ae', seen, a1, a3, a4, a5, ?_⟩
  have key : ∀ (l : List (List Nat)) (x y : List Nat), (x :: l).IsChain (fun x y => p.energy (sumOp V) y ≤ p.energy (sumOp V) x) →
      (x :: l).getLast? = some y → p.energy (sumOp V) y ≤ p.energy (sumOp V) x := by
    intro l
    induction l with
    | nil => intro x y _ h; simp at h; rw [h]
    | cons z l ih =>
      intro x y hc hlast
      rw [List.isChain_cons_cons] at hc
      rw [List.getLast?_cons_cons] at hlast
      exact le_trans (ih z y hc.2 hlast) hc.1
  exact key seen _ _ (a4.imp (fun _ _ h => h.1)) a5

/-- The constructor accepts such a model whatever the number of steps, and throws if a term has order three or more. -/
theorem C42_construct [IsStrictOrderedRing V] (gm : GM V) (p : Problem V) (hb : BuiltModel gm p) (L : Nat) (hL : 0 < L)
    (hne : p.numLabels ≠ []) (h2 : ∀ n ∈ p.numLabels, n = L) (scale : V) (steps : Nat) (ini : Init) (ord : Order)
    (hi : ValidInit p.numLabels.length ini) (hord : ValidOrder L ord) :
    ((∀ t ∈ p.terms, t.vars.length ≤ 2) → ∃ ae, construct gm steps scale ini ord = .ok () (some ae) ∧ p.Labeling (arg ae) ∧
      (ini = .default → arg ae = List.replicate p.numLabels.length 0) ∧
      (∀ l, ini = .explicit l → p.Labeling l → arg ae = l)) ∧
    ((∃ t ∈ p.terms, 2 < t.vars.length) → construct gm steps scale ini ord = .throw none) := by
  have hs := hb.represents.toStores
  constructor
  · intro ho
    obtain ⟨ae, e, hinv⟩ := construct_inv hs hL hne h2 ho scale steps hi hord
    have hn : gm.numberOfVariables = p.numLabels.length := by rw [← hs.labels]; rfl
    refine ⟨ae, e, hinv.label, ?_, ?_⟩
    · rintro rfl
      unfold construct at e
      split at e
      · exact absurd e (by simp)
      · simp only [initLabel] at e
        split at e
        · exact absurd e (by simp)
        · injection e with _ e
          injection e with e
          subst e
          simp [arg, resized_nil, hn]
    · rintro l rfl hl
      unfold construct at e
      split at e
      · exact absurd e (by simp)
      · simp only [initLabel] at e
        split at e
        · exact absurd e (by simp)
        · injection e with _ e
          injection e with e
          subst e
          simp only [arg, setInitialLabel, resized_nil, List.length_replicate, hn, hl.1, if_true]
          rw [if_neg]
          simp only [Bool.not_eq_true, List.any_eq_false, decide_eq_true_eq, not_le]
          rintro ⟨a, n⟩ hmem
          rw [hs.labels, List.mem_iff_getElem] at hmem
          obtain ⟨i, hi, he⟩ := hmem
          simp only [List.getElem_zip, Prod.mk.injEq] at he
          simp only [List.length_zip] at hi
          exact hl.2 i a n (List.getElem?_eq_some_iff.mpr ⟨by omega, he.1⟩) (List.getElem?_eq_some_iff.mpr ⟨by omega, he.2⟩)
  · rintro ⟨t, ht, hlen⟩
    unfold construct
    rw [if_pos]
    rw [List.any_eq_true]
    obtain ⟨f, hf, hm⟩ := forall₂_mem_right hs.factors t ht
    exact ⟨f, hf, by rw [hm.visSize]; simpa using hlen⟩

/-! ### Witnesses -/

/-- Two variables with three labels; the unary terms prefer label 1 and label 2, every other label costs 10, except that label 0
costs 1; a Potts term of weight 5. -/
def pottsOps : List (BuildOp Int) :=
  [.addVariable 3, .addVariable 3,
   .addFunction 0 ⟨[3], fun c => if c = [0] then 1 else if c = [1] then 0 else 10⟩,
   .addFunction 0 ⟨[3], fun c => if c = [0] then 1 else if c = [2] then 0 else 10⟩,
   .addFunction 0 ⟨[3, 3], fun c => if c.getD 0 0 = c.getD 1 0 then 0 else 5⟩,
   .addFactor 0 [0], .addFactor 1 [1], .addFactor 2 [0, 1]]

theorem pottsOps_valid : ValidHistory 1 Built.empty pottsOps := by
  simp [pottsOps, ValidHistory, BuildOp.Valid, BuildOp.apply, Built.empty, restrict]

theorem pottsOps_order : ∀ t ∈ (builtAfter pottsOps).problem.terms, t.vars.length ≤ 2 := by
  intro t ht
  simp [builtAfter, pottsOps, BuildOp.apply, Built.empty, Built.problem] at ht
  rcases ht with rfl | rfl | rfl <;> simp

theorem pottsOps_potts : ∀ t ∈ (builtAfter pottsOps).problem.terms, t.IsPotts 3 := by
  intro t ht
  simp [builtAfter, pottsOps, BuildOp.apply, Built.empty, Built.problem] at ht
  rcases ht with rfl | rfl | rfl <;> intro hlen
  · simp at hlen
  · simp at hlen
  · exact ⟨0, 5, by decide, by decide, fun a b _ _ => by simp⟩

/-- The hypotheses of `C42_alphaExpansion_partial` are met, also after calls of `infer`. -/
example : ∃ gm, BuiltModel gm (builtAfter pottsOps).problem ∧ (∀ n ∈ (builtAfter pottsOps).problem.numLabels, n = 3) ∧
    (∀ t ∈ (builtAfter pottsOps).problem.terms, t.vars.length ≤ 2 ∧ t.IsPotts 3) ∧
    ∃ solver : Network Int → List Bool → List Bool, ExactSolver (fun n => solver n []) ∧
    ∃ ae seen ae', Reachable solver 1000 1 gm (builtAfter pottsOps).problem 3 ae ∧ infer solver 1000 ae = some (ae', seen) ∧
      Reachable solver 1000 1 gm (builtAfter pottsOps).problem 3 ae' := by
  obtain ⟨gm, hb⟩ := builtModel_exists pottsOps_valid
  obtain ⟨s, hs⟩ := exactSolver_exists (V := Int)
  have hn : ∀ n ∈ (builtAfter pottsOps).problem.numLabels, n = 3 := by decide
  have hne : (builtAfter pottsOps).problem.numLabels ≠ [] := by decide
  refine ⟨gm, hb, hn, fun t ht => ⟨pottsOps_order t ht, pottsOps_potts t ht⟩, fun n _ => s n, hs, ?_⟩
  obtain ⟨ae, e, _⟩ := (C42_construct gm _ hb 3 (by decide) hne hn 1 10 (.explicit [1, 2]) .default trivial trivial).1 pottsOps_order
  have hr : Reachable (fun n _ => s n) 1000 1 gm (builtAfter pottsOps).problem 3 ae := .construct (ini := .explicit [1, 2]) (ord := .default) trivial trivial e
  obtain ⟨_, ae', seen, h, _⟩ := C42_alphaExpansion_partial gm _ hb 3 (by decide) hne hn pottsOps_order pottsOps_potts 1 1000 (by decide) _ hs ae hr
  exact ⟨ae, seen, ae', hr, h, .infer hr h⟩

/-- What an expansion with an exact solver does, given the terms for the solver. -/
theorem expand_min {gm : GM Int} {label : List Nat} {α k N : Nat} {vs : List (FactorView Int)} {ts : List (Term Int)}
    (hcount : countAux gm label α gm.factors = some k) (hN : gm.numberOfVariables + k = N)
    (hlt : label.countP (fun l => decide (l = α)) < gm.numberOfVariables) (hlen : label.length ≤ gm.numberOfVariables + k) {inf : Int}
    (hf : expandFactors gm label α gm.factors gm.numberOfVariables = some vs)
    (hm : List.Forall₂ (ViewMatches N) (alphaUnaries inf α label 0 ++ vs) ts)
    (hsub : (⟨[], ts⟩ : Problem Int).Submodular) (solver : Network Int → List Bool → List Bool)
    (hsolver : ExactSolver (fun n => solver n [])) :
    ∃ x : List Nat, x.length = N ∧ (∀ l ∈ x, l < 2) ∧ expand solver inf 1 gm label α = some (moved label α x) ∧
      ∀ y : List Nat, y.length = N → (∀ l ∈ y, l < 2) →
        (ts.map (fun t => t.value x)).sum ≤ (ts.map (fun t => t.value y)).sum := by
  subst hN
  obtain ⟨g, g', x, a1, a2, a3, a4, a5, a6⟩ := C41_added_factors .minimizer (by decide) _ _ _ hm
    (by rw [if_pos rfl]; exact hsub) 1 0 (by decide) solver hsolver []
  refine ⟨x, a4, a5, ?_, fun y h1 h2 => by have := a6 y h1 h2; simpa [signed] using this⟩
  unfold expand
  rw [hcount]
  simp only
  rw [if_pos hlt, hf]
  simp only
  rw [a1]
  simp only [a2, a3]
  rw [applyMove_spec α x label 0 (by rw [a4]; omega)]
  simp only [Nat.zero_add]
  rfl

/-- Lists of three labels 0 and 1. -/
theorem three_binary {x : List Nat} (hl : x.length = 3) (h : ∀ l ∈ x, l < 2) :
    ∃ a b c : Nat, x = [a, b, c] ∧ (a = 0 ∨ a = 1) ∧ (b = 0 ∨ b = 1) ∧ (c = 0 ∨ c = 1) := by
  match x, hl with
  | [a, b, c], _ =>
    have h1 := h a (by simp)
    have h2 := h b (by simp)
    have h3 := h c (by simp)
    exact ⟨a, b, c, rfl, by omega, by omega, by omega⟩

/-- The terms for the binary solver made from `pottsOps` with labels 1, 2 and alpha = 0. -/
def pottsTerms : List (Term Int) :=
  [unaryT 0 1 0, unaryT 1 1 0, pairT 0 2 0 5 0 0, pairT 1 2 0 5 0 0, unaryT 2 0 5]

theorem pottsTerms_min {x : List Nat} (hl : x.length = 3) (h : ∀ l ∈ x, l < 2)
    (hm : (pottsTerms.map (fun t => t.value x)).sum ≤ (pottsTerms.map (fun t => t.value [1, 1, 0])).sum) : x = [1, 1, 0] := by
  obtain ⟨a, b, c, rfl, ha, hb, hc⟩ := three_binary hl h
  revert hm
  rcases ha with rfl | rfl <;> rcases hb with rfl | rfl <;> rcases hc with rfl | rfl <;> decide

theorem pottsTerms_sub : (⟨[], pottsTerms⟩ : Problem Int).Submodular := by
  intro t ht
  simp only [pottsTerms, List.mem_cons, List.not_mem_nil, or_false] at ht
  rcases ht with rfl | rfl | rfl | rfl | rfl <;> decide

/-- Even for Potts terms an expansion does not find the best labeling it can reach: in `pottsOps` the labels 1, 2 have energy 5 and
changing both to alpha = 0 gives energy 2, but the labels stay as they are. The auxiliary variable costs nothing if both
variables keep their different labels (the terms for var1 and var2, lines 363-364, penalise the wrong case). -/
theorem C42_violated_optimal : ∃ (gm : GM Int) (p : Problem Int), BuiltModel gm p ∧ (∀ n ∈ p.numLabels, n = 3) ∧
    (∀ t ∈ p.terms, t.vars.length ≤ 2 ∧ t.IsPotts 3) ∧ p.Labeling [1, 2] ∧
    p.energy (sumOp Int) [1, 2] = 5 ∧ p.energy (sumOp Int) [0, 0] = 2 ∧
    ∀ (solver : Network Int → List Bool → List Bool) (inf : Int), ExactSolver (fun n => solver n []) →
      expand solver inf 1 gm [1, 2] 0 = some [1, 2] := by
  obtain ⟨c, h1⟩ : ∃ c, (Client.init 1).run (fun _ _ => false) pottsOps = .ok () c := ⟨_, rfl⟩
  refine ⟨c.gm, (builtAfter pottsOps).problem, ⟨1, _, pottsOps, c, eqvSound_false, pottsOps_valid, h1, rfl, rfl⟩, by decide,
    fun t ht => ⟨pottsOps_order t ht, pottsOps_potts t ht⟩, ?_, rfl, rfl, ?_⟩
  · refine ⟨rfl, ?_⟩
    intro v l n hv hn
    match v with
    | 0 => cases hv; cases hn; decide
    | 1 => cases hv; cases hn; decide
    | v + 2 => simp at hv
  intro solver inf hs
  have key : ∃ k vs, countAux c.gm [1, 2] 0 c.gm.factors = some k ∧ c.gm.numberOfVariables = 2 ∧ k = 1 ∧
      expandFactors c.gm [1, 2] 0 c.gm.factors c.gm.numberOfVariables = some vs ∧
      vs = [unary 0 1 0, unary 1 1 0, pairwise 0 2 0 5 0 0, pairwise 1 2 0 5 0 0, unary 2 0 5] := by
    cases h1
    exact ⟨_, _, rfl, rfl, rfl, rfl, rfl⟩
  clear h1
  obtain ⟨k, vs, k1, k2, k3, k4, k5⟩ := key
  subst k3 k5
  obtain ⟨x, x1, x2, x3, x4⟩ := expand_min (N := 3) (ts := pottsTerms) (inf := inf) k1 (by rw [k2]) (by rw [k2]; decide) (by rw [k2]; decide) k4
    (.cons (unary_matches _ _ _ _ (by decide)) (.cons (unary_matches _ _ _ _ (by decide))
      (.cons (pairwise_matches _ _ _ _ _ _ _ (by decide) (by decide)) (.cons (pairwise_matches _ _ _ _ _ _ _ (by decide) (by decide))
        (.cons (unary_matches _ _ _ _ (by decide)) .nil))))) pottsTerms_sub solver hs
  rw [x3, pottsTerms_min x1 x2 (x4 [1, 1, 0] rfl (by decide))]
  rfl

/-- Two variables with four labels and the distance 2·|a - b|; label 0 costs 1 for the first variable, label 3 costs 1 for the second. -/
def linearOps : List (BuildOp Int) :=
  [.addVariable 4, .addVariable 4,
   .addFunction 0 ⟨[4], fun c => if c = [0] then 1 else 0⟩,
   .addFunction 0 ⟨[4], fun c => if c = [3] then 1 else 0⟩,
   .addFunction 0 ⟨[4, 4], fun c => 2 * |(c.getD 0 0 : Int) - (c.getD 1 0 : Int)|⟩,
   .addFactor 0 [0], .addFactor 1 [1], .addFactor 2 [0, 1]]

theorem linearOps_valid : ValidHistory 1 Built.empty linearOps := by
  simp [linearOps, ValidHistory, BuildOp.Valid, BuildOp.apply, Built.empty, restrict]

/-- The terms for the binary solver made from `linearOps` with labels 0, 1 and alpha = 3. -/
def linearTerms : List (Term Int) :=
  [unaryT 0 0 1, unaryT 1 1 0, pairT 0 2 0 4 0 0, pairT 1 2 0 6 0 0, unaryT 2 0 2]

theorem linearTerms_min {x : List Nat} (hl : x.length = 3) (h : ∀ l ∈ x, l < 2)
    (hm : (linearTerms.map (fun t => t.value x)).sum ≤ (linearTerms.map (fun t => t.value [0, 1, 0])).sum) : x = [0, 1, 0] := by
  obtain ⟨a, b, c, rfl, ha, hb, hc⟩ := three_binary hl h
  revert hm
  rcases ha with rfl | rfl <;> rcases hb with rfl | rfl <;> rcases hc with rfl | rfl <;> decide

theorem linearTerms_sub : (⟨[], linearTerms⟩ : Problem Int).Submodular := by
  intro t ht
  simp only [linearTerms, List.mem_cons, List.not_mem_nil, or_false] at ht
  rcases ht with rfl | rfl | rfl | rfl | rfl <;> decide

/-- For metric terms an expansion can increase the energy: in `linearOps`, started at labels 0, 1 with energy 3, the first step with
alpha = 3 leads to labels 3, 1 with energy 4, for every exact solver. -/
theorem C42_violated_monotone : ∃ (gm : GM Int) (p : Problem Int), BuiltModel gm p ∧ (∀ n ∈ p.numLabels, n = 4) ∧
    (∀ t ∈ p.terms, t.vars.length ≤ 2 ∧ t.IsMetric 4) ∧
    ∀ (solver : Network Int → List Bool → List Bool) (inf : Int), ExactSolver (fun n => solver n []) →
      ∃ ae ae' seen, construct gm 1 1 (.explicit [0, 1]) (.explicit [3, 2, 1, 0]) = .ok () (some ae) ∧ arg ae = [0, 1] ∧
        infer solver inf ae = some (ae', seen) ∧ arg ae' = [3, 1] ∧
        p.energy (sumOp Int) [0, 1] = 3 ∧ p.energy (sumOp Int) [3, 1] = 4 := by
  obtain ⟨c, h1⟩ : ∃ c, (Client.init 1).run (fun _ _ => false) linearOps = .ok () c := ⟨_, rfl⟩
  refine ⟨c.gm, (builtAfter linearOps).problem, ⟨1, _, linearOps, c, eqvSound_false, linearOps_valid, h1, rfl, rfl⟩, by decide, ?_, ?_⟩
  · intro t ht
    simp [builtAfter, linearOps, BuildOp.apply, Built.empty, Built.problem] at ht
    rcases ht with rfl | rfl | rfl <;> refine ⟨by simp, ?_⟩ <;> intro hlen
    · simp at hlen
    · simp at hlen
    · intro a b c _ _ _
      simp only [List.getElem?_cons_zero, List.getElem?_cons_succ, Option.getD_some]
      refine ⟨?_, by positivity, ?_, ?_⟩
      · constructor
        · intro h
          have h' : |(a : Int) - b| = 0 := by omega
          rw [abs_eq_zero] at h'
          omega
        · rintro rfl; simp
      · rw [abs_sub_comm]
      · have := abs_sub_le (a : Int) b c
        omega
  intro solver inf hs
  have key : ∃ k vs, countAux c.gm [0, 1] 3 c.gm.factors = some k ∧ c.gm.numberOfVariables = 2 ∧ k = 1 ∧
      expandFactors c.gm [0, 1] 3 c.gm.factors c.gm.numberOfVariables = some vs ∧
      vs = [unary 0 0 1, unary 1 1 0, pairwise 0 2 0 4 0 0, pairwise 1 2 0 6 0 0, unary 2 0 2] := by
    cases h1
    exact ⟨_, _, rfl, rfl, rfl, rfl, rfl⟩
  have key2 : c.gm.evaluate (sumOp Int) [0, 1] = some 3 ∧ c.gm.evaluate (sumOp Int) [3, 1] = some 4 ∧
      construct c.gm 1 1 (.explicit [0, 1]) (.explicit [3, 2, 1, 0]) = .ok () (some ⟨c.gm, 1, 1, [0, 1], [3, 2, 1, 0], 4, 3, 0⟩) := by
    cases h1
    exact ⟨rfl, rfl, rfl⟩
  clear h1
  obtain ⟨k, vs, k1, k2, k3, k4, k5⟩ := key
  subst k3 k5
  obtain ⟨x, x1, x2, x3, x4⟩ := expand_min (N := 3) (ts := linearTerms) (inf := inf) k1 (by rw [k2]) (by rw [k2]; decide) (by rw [k2]; decide) k4
    (.cons (unary_matches _ _ _ _ (by decide)) (.cons (unary_matches _ _ _ _ (by decide))
      (.cons (pairwise_matches _ _ _ _ _ _ _ (by decide) (by decide)) (.cons (pairwise_matches _ _ _ _ _ _ _ (by decide) (by decide))
        (.cons (unary_matches _ _ _ _ (by decide)) .nil))))) linearTerms_sub solver hs
  rw [linearTerms_min x1 x2 (x4 [0, 1, 0] rfl (by decide))] at x3
  have x3' : expand solver inf 1 c.gm [0, 1] 3 = some [3, 1] := x3
  refine ⟨_, ⟨c.gm, 1, 1, [3, 1], [3, 2, 1, 0], 4, 2, 1⟩, [[3, 1]], key2.2.2, rfl, ?_, rfl, rfl, rfl⟩
  simp only [infer, key2.1, loop, x3', key2.2.1, incrementAlpha]
  rfl

/-- Two variables with two and three labels and a unary term on the first. -/
def unequalOps : List (BuildOp Int) :=
  [.addVariable 2, .addVariable 3, .addFunction 0 ⟨[2], fun c => if c = [1] then 1 else 0⟩, .addFactor 0 [0]]

theorem unequalOps_valid : ValidHistory 1 Built.empty unequalOps := by
  simp [unequalOps, ValidHistory, BuildOp.Valid, BuildOp.apply, Built.empty, restrict]

/-- If the variables have different numbers of labels, alpha can be a label that a variable does not have; the value of a factor is
then read out of range, although the constructor accepts the model. -/
theorem C42_violated_labels : ∃ (gm : GM Int) (p : Problem Int), BuiltModel gm p ∧ (∀ t ∈ p.terms, t.vars.length ≤ 2 ∧ t.IsPotts 3) ∧
    ∃ ae, construct gm 1 1 .default (.explicit [2, 1, 0]) = .ok () (some ae) ∧
      ∀ solver inf, infer solver inf ae = none := by
  obtain ⟨c, h1⟩ : ∃ c, (Client.init 1).run (fun _ _ => false) unequalOps = .ok () c := ⟨_, rfl⟩
  refine ⟨c.gm, (builtAfter unequalOps).problem, ⟨1, _, unequalOps, c, eqvSound_false, unequalOps_valid, h1, rfl, rfl⟩, ?_, ?_⟩
  · intro t ht
    simp [builtAfter, unequalOps, BuildOp.apply, Built.empty, Built.problem] at ht
    subst ht
    exact ⟨by simp, fun h => by simp at h⟩
  · cases h1
    exact ⟨_, rfl, fun solver inf => rfl⟩

/-- Two variables and one unary term, on the last: factor 0 belongs to variable 1. -/
def localOps : List (BuildOp Int) :=
  [.addVariable 2, .addVariable 2, .addFunction 0 ⟨[2], fun c => if c = [1] then 0 else 1⟩, .addFactor 0 [1]]

theorem localOps_valid : ValidHistory 1 Built.empty localOps := by
  simp [localOps, ValidHistory, BuildOp.Valid, BuildOp.apply, Built.empty, restrict]

/-- LOCALOPT_LABEL takes the index of a factor for the index of a variable: with one unary term, on the second of two variables, the
first variable gets the label that is best for the second. -/
theorem C42_violated_localOpt : ∃ (gm : GM Int) (p : Problem Int), BuiltModel gm p ∧
    p.energy (sumOp Int) [0, 1] = 0 ∧ p.energy (sumOp Int) [1, 0] = 1 ∧
    ∃ ae, construct gm 1 1 .localOpt .default = .ok () (some ae) ∧ arg ae = [1, 0] := by
  obtain ⟨c, h1⟩ : ∃ c, (Client.init 1).run (fun _ _ => false) localOps = .ok () c := ⟨_, rfl⟩
  refine ⟨c.gm, (builtAfter localOps).problem, ⟨1, _, localOps, c, eqvSound_false, localOps_valid, h1, rfl, rfl⟩, rfl, rfl, ?_⟩
  cases h1
  exact ⟨_, rfl, rfl⟩

/-- One variable and two unary terms. -/
def localRangeOps : List (BuildOp Int) :=
  [.addVariable 2, .addFunction 0 ⟨[2], fun c => if c = [1] then 0 else 1⟩, .addFactor 0 [0], .addFactor 0 [0]]

theorem localRangeOps_valid : ValidHistory 1 Built.empty localRangeOps := by
  simp [localRangeOps, ValidHistory, BuildOp.Valid, BuildOp.apply, Built.empty, restrict]

/-- With more unary terms than variables LOCALOPT_LABEL reads out of range. -/
theorem C42_violated_localOpt_range : ∃ (gm : GM Int) (p : Problem Int), BuiltModel gm p ∧
    (∀ t ∈ p.terms, t.vars.length = 1) ∧ construct gm 1 1 .localOpt .default = .ub := by
  obtain ⟨c, h1⟩ : ∃ c, (Client.init 1).run (fun _ _ => false) localRangeOps = .ok () c := ⟨_, rfl⟩
  refine ⟨c.gm, (builtAfter localRangeOps).problem, ⟨1, _, localRangeOps, c, eqvSound_false, localRangeOps_valid, h1, rfl, rfl⟩, ?_, ?_⟩
  · intro t ht
    simp [builtAfter, localRangeOps, BuildOp.apply, Built.empty, Built.problem] at ht
    subst ht; rfl
  · cases h1
    rfl

end AlphaExpansion
end OpenGM
