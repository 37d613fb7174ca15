import Verif.Lemmas.Moebius
import Verif.Lemmas.AlphaExpansion
import Verif.Lemmas.DPInfer
import Verif.Props.HigherOrderEnergy
/-
The polynomial that the reduction builds from the factors.
-/
namespace OpenGM.FixFusion
open Spec Hoe
variable {V : Type} [CommRing V] [LinearOrder V]

/-- The labels that the bits stand for: for each variable below `n` the answer is a label. -/
structure LabelChoice (numLabels : List Nat) (lab : Bool → Nat → Option Nat) (L : Bool → Nat → Nat) : Prop where
  eq : ∀ b v n, numLabels[v]? = some n → lab b v = some (L b v) ∧ L b v < n

/-- The tuple of labels of an assignment. -/
def tupleOf (vars : List Nat) (L : Bool → Nat → Nat) (x : Nat → Bool) : List Nat := vars.map (fun v => L (x v) v)

/-- The variable at a position. -/
def varAt (vars : List Nat) (j : Nat) : Nat := vars.getD j 0

theorem vars_eq (vars : List Nat) : (List.range' 0 vars.length).map (varAt vars) = vars := by
  apply List.ext_getElem
  · simp
  · intro i h1 h2
    simp [varAt, List.getElem?_eq_getElem h2]

theorem visAt_varAt {gm : GM V} {f : FactorRec} {t : Term V} (hm : FactorMatches gm f t) (j : Nat) (hj : j < t.vars.length) : gm.visAt f j = some (varAt t.vars j) := by
  rw [hm.visAt j (by rw [hm.visSize]; exact hj)]
  simp [varAt, List.getElem?_eq_getElem hj]

theorem varAt_mem (vars : List Nat) (j : Nat) (hj : j < vars.length) : varAt vars j ∈ vars := by
  simp [varAt, List.getElem?_eq_getElem hj]

theorem cliqueLabels_spec {gm : GM V} {f : FactorRec} {t : Term V} (hm : FactorMatches gm f t) {lab : Bool → Nat → Option Nat} {L : Bool → Nat → Nat} (hL : LabelChoice gm.numLabels lab L) (a : Nat) :
    ∀ (k i : Nat), i + k = t.vars.length → cliqueLabels gm f lab a i k = some ((List.range' i k).map (fun j => L (a.testBit j) (varAt t.vars j)))
  | 0, i, _ => by simp [cliqueLabels]
  | k + 1, i, h => by
    have hv := visAt_varAt hm i (by omega)
    have hr := hm.range _ (varAt_mem t.vars i (by omega))
    have hl := (hL.eq (a.testBit i) (varAt t.vars i) _ (List.getElem?_eq_getElem hr)).1
    unfold cliqueLabels
    rw [hv]
    simp only
    rw [hl, cliqueLabels_spec hm hL a k (i + 1) (by omega), List.range'_succ]
    simp

theorem subsetVars_spec {gm : GM V} {f : FactorRec} {t : Term V} (hm : FactorMatches gm f t) (s : Nat) :
    ∀ (k i : Nat), i + k = t.vars.length → subsetVars gm f s i k = some (((List.range' i k).filter (fun j => s.testBit j)).map (varAt t.vars))
  | 0, i, _ => by simp [subsetVars]
  | k + 1, i, h => by
    unfold subsetVars
    rw [visAt_varAt hm i (by omega), subsetVars_spec hm s k (i + 1) (by omega), List.range'_succ]
    simp only
    cases hb : s.testBit i <;> simp [hb]

/-- The variables of a subset. -/
def varsOf (vars : List Nat) (s : Nat) : List Nat := ((List.range' 0 vars.length).filter (fun j => s.testBit j)).map (varAt vars)

theorem varsOf_sublist (vars : List Nat) (s : Nat) : (varsOf vars s).Sublist vars := by
  have h : (varsOf vars s).Sublist ((List.range' 0 vars.length).map (varAt vars)) := List.Sublist.map _ (List.filter_sublist)
  rwa [vars_eq] at h

theorem varsOf_ne_nil (vars : List Nat) (s : Nat) (h0 : s ≠ 0) (hs : s < 2 ^ vars.length) : varsOf vars s ≠ [] := by
  obtain ⟨i, hi⟩ := Nat.exists_testBit_of_ne_zero h0
  have hik : i < vars.length := by
    by_contra hc
    have : s < 2 ^ i := lt_of_lt_of_le hs (Nat.pow_le_pow_right (by omega) (by omega))
    rw [Nat.testBit_lt_two_pow this] at hi
    cases hi
  intro he
  have hmem : varAt vars i ∈ varsOf vars s := List.mem_map.2 ⟨i, List.mem_filter.2 ⟨by simp [List.mem_range']; exact hik, hi⟩, rfl⟩
  rw [he] at hmem
  cases hmem

/-- The assignment of the bits of a factor. -/
def bitsOf (vars : List Nat) (x : Nat → Bool) : Nat := Nat.ofBits (fun j : Fin vars.length => x (varAt vars j))

theorem testBit_bitsOf (vars : List Nat) (x : Nat → Bool) (j : Nat) (hj : j < vars.length) : (bitsOf vars x).testBit j = x (varAt vars j) := by
  unfold bitsOf
  rw [Nat.testBit_ofBits_lt _ j hj]

theorem varsOf_all (vars : List Nat) (s : Nat) (x : Nat → Bool) : (varsOf vars s).all x = subsetOf vars.length s (bitsOf vars x) := by
  rw [Bool.eq_iff_iff, subsetOf_iff, List.all_eq_true]
  constructor
  · intro h i hi hb
    rw [testBit_bitsOf vars x i hi]
    exact h _ (List.mem_map.2 ⟨i, List.mem_filter.2 ⟨by simp [List.mem_range']; exact hi, hb⟩, rfl⟩)
  · intro h v hv
    obtain ⟨i, hi, rfl⟩ := List.mem_map.1 hv
    obtain ⟨h1, h2⟩ := List.mem_filter.1 hi
    have hi' : i < vars.length := by simpa [List.mem_range'] using h1
    rw [← testBit_bitsOf vars x i hi']
    exact h i hi' h2

/-- The value of a factor at an assignment of the bits. -/
def bitEnergy (t : Term V) (L : Bool → Nat → Nat) (a : Nat) : V := t.table ((List.range' 0 t.vars.length).map (fun j => L (a.testBit j) (varAt t.vars j)))

theorem bitEnergy_bitsOf (t : Term V) (L : Bool → Nat → Nat) (x : Nat → Bool) : bitEnergy t L (bitsOf t.vars x) = t.table (tupleOf t.vars L x) := by
  unfold bitEnergy tupleOf
  congr 1
  conv_rhs => rw [← vars_eq t.vars, List.map_map]
  apply List.map_congr_left
  intro j hj
  have hj' : j < t.vars.length := by simpa [List.mem_range'] using hj
  simp only [Function.comp]
  rw [testBit_bitsOf t.vars x j hj']

theorem bitEnergy_zero (t : Term V) (L : Bool → Nat → Nat) : bitEnergy t L 0 = t.table (tupleOf t.vars L (fun _ => false)) := by
  unfold bitEnergy tupleOf
  congr 1
  conv_rhs => rw [← vars_eq t.vars, List.map_map]
  apply List.map_congr_left
  intro j _
  simp

theorem addEnergy_length (k a : Nat) (e : V) (cs : List V) : (addEnergy k a e cs).length = cs.length := by simp [addEnergy]
theorem addEnergy_getElem? (k a : Nat) (e : V) (cs : List V) (s : Nat) (hs : s ≠ 0) : (addEnergy k a e cs)[s]? = cs[s]?.map (fun c => c + contrib k a s e) := by
  unfold addEnergy contrib
  rw [List.getElem?_mapIdx]
  cases cs[s]? with
  | none => rfl
  | some c =>
    simp only [Option.map_some, if_neg hs]
    split <;> simp

theorem inShape_tuple {gm : GM V} {f : FactorRec} {t : Term V} (hm : FactorMatches gm f t) (g : Nat → Nat) (hg : ∀ v n, gm.numLabels[v]? = some n → g v < n) :
    InShape (restrict gm.numLabels t.vars) (t.vars.map g) := by
  have : ∀ vs : List Nat, (∀ v ∈ vs, v < gm.numLabels.length) → InShape (restrict gm.numLabels vs) (vs.map g) := by
    intro vs
    induction vs with
    | nil => intro _; trivial
    | cons v vs ih =>
      intro h
      have hv := h v (by simp)
      refine ⟨?_, ih (fun u hu => h u (by simp [hu]))⟩
      have := hg v _ (List.getElem?_eq_getElem hv)
      simpa [List.getElem?_eq_getElem hv] using this
  exact this t.vars hm.range

theorem callFactor_choice {gm : GM V} {p : Problem V} (hs : Stores gm p) {f : FactorRec} {t : Term V} (hm : FactorMatches gm f t) (hne : t.vars ≠ []) {lab : Bool → Nat → Option Nat} {L : Bool → Nat → Nat}
    (hL : LabelChoice gm.numLabels lab L) (y : Nat → Bool) : gm.callFactor f (tupleOf t.vars L y) = some (t.table (tupleOf t.vars L y)) := by
  apply DP.callFactor_at hs hm _ hne
  have := inShape_tuple hm (fun v => L (y v) v) (fun v n hn => (hL.eq (y v) v n hn).2)
  rw [hs.labels] at this
  exact this

theorem callFactor_bits {gm : GM V} {p : Problem V} (hs : Stores gm p) {f : FactorRec} {t : Term V} (hm : FactorMatches gm f t) (hne : t.vars ≠ []) {lab : Bool → Nat → Option Nat} {L : Bool → Nat → Nat}
    (hL : LabelChoice gm.numLabels lab L) (a : Nat) : gm.callFactor f ((List.range' 0 t.vars.length).map (fun j => L (a.testBit j) (varAt t.vars j))) = some (bitEnergy t L a) := by
  unfold bitEnergy
  apply DP.callFactor_at hs hm _ hne
  rw [← hs.labels]
  have hr := hm.range
  have key : ∀ js : List Nat, (∀ j ∈ js, j < t.vars.length) → InShape (restrict gm.numLabels (js.map (varAt t.vars))) (js.map (fun j => L (a.testBit j) (varAt t.vars j))) := by
    intro js
    induction js with
    | nil => intro _; trivial
    | cons j js ih =>
      intro h
      have hv := hr _ (varAt_mem t.vars j (h j (by simp)))
      refine ⟨?_, ih (fun u hu => h u (by simp [hu]))⟩
      have := (hL.eq (a.testBit j) _ _ (List.getElem?_eq_getElem hv)).2
      simpa [List.getElem?_eq_getElem hv] using this
  have := key (List.range' 0 t.vars.length) (fun j hj => by simpa [List.mem_range'] using hj)
  rwa [vars_eq] at this

theorem coefficients_spec {gm : GM V} {p : Problem V} (hs : Stores gm p) {f : FactorRec} {t : Term V} (hm : FactorMatches gm f t) (hne : t.vars ≠ []) {lab : Bool → Nat → Option Nat} {L : Bool → Nat → Nat}
    (hL : LabelChoice gm.numLabels lab L) : ∀ (as : List Nat) (cs : List V), ∃ cs', coefficients gm f lab as cs = some cs' ∧ cs'.length = cs.length ∧
      ∀ s, s ≠ 0 → cs'[s]? = cs[s]?.map (fun c => c + (as.map (fun a => contrib t.vars.length a s (bitEnergy t L a))).sum)
  | [], cs => ⟨cs, rfl, rfl, fun s _ => by cases cs[s]? <;> simp⟩
  | a :: as, cs => by
    obtain ⟨cs', e1, e2, e3⟩ := coefficients_spec hs hm hne hL as (addEnergy f.visSize a (bitEnergy t L a) cs)
    refine ⟨cs', ?_, by rw [e2, addEnergy_length], fun s h0 => ?_⟩
    · unfold coefficients
      rw [hm.visSize, cliqueLabels_spec hm hL a _ 0 (by omega)]
      simp only
      rw [callFactor_bits hs hm hne hL a]
      simp only
      rw [← hm.visSize]
      exact e1
    · rw [e3 s h0, addEnergy_getElem? _ _ _ _ _ h0, hm.visSize]
      cases cs[s]? with
      | none => rfl
      | some c => simp only [Option.map_some, List.map_cons, List.sum_cons]; congr 1; ring

theorem addSubsets_spec [IsStrictOrderedRing V] {D : Nat} (hD : 2 ≤ D) {gm : GM V} {f : FactorRec} {t : Term V} (hm : FactorMatches gm f t) (hle : t.vars.length ≤ D) {cs : List V} {c : Nat → V} :
    ∀ (ss : List Nat) (h : HOE V) (ms : List (V × List Nat)), (∀ s ∈ ss, cs[s]? = some (c s)) → HoeBuilt D h gm.numLabels.length ms →
      ∃ h', addSubsets D gm f cs ss h = some h' ∧ HoeBuilt D h' gm.numLabels.length (ms ++ ss.map (fun s => (c s, varsOf t.vars s)))
  | [], h, ms, _, hb => ⟨h, rfl, by simpa using hb⟩
  | s :: ss, h, ms, hc, hb => by
    have hsub := varsOf_sublist t.vars s
    have hinc : (varsOf t.vars s).Pairwise (· < ·) := hm.sorted.sublist hsub
    have hr : ∀ v ∈ varsOf t.vars s, v < gm.numLabels.length := fun v hv => hm.range v (hsub.subset hv)
    have hd : (varsOf t.vars s).length ≤ D := le_trans hsub.length_le hle
    obtain ⟨h1, e1⟩ := (C71_add hD (.built hb) (c s) (varsOf t.vars s) hinc hr hd).1
    have hb1 := HoeBuilt.addTerm (c s) (varsOf t.vars s) h1 hb hinc hr hd e1
    obtain ⟨h', e2, hb'⟩ := addSubsets_spec hD hm hle ss h1 _ (fun u hu => hc u (by simp [hu])) hb1
    refine ⟨h', ?_, by simpa using hb'⟩
    unfold addSubsets
    rw [hc s (by simp), hm.visSize, subsetVars_spec hm s _ 0 (by omega)]
    simp only
    have hsort : (((List.range' 0 t.vars.length).filter (fun j => s.testBit j)).map (varAt t.vars)).insertionSort (· ≤ ·) = varsOf t.vars s := by
      apply List.Pairwise.insertionSort_eq
      exact hinc.imp (fun h => le_of_lt h)
    rw [hsort, e1]
    exact e2

theorem addHigher_spec [IsStrictOrderedRing V] {D : Nat} (hD : 2 ≤ D) {gm : GM V} {p : Problem V} (hs : Stores gm p) {f : FactorRec} {t : Term V} (hm : FactorMatches gm f t) (hne : t.vars ≠ []) (hle : t.vars.length ≤ D)
    {lab : Bool → Nat → Option Nat} {L : Bool → Nat → Nat} (hL : LabelChoice gm.numLabels lab L) (h : HOE V) (ms : List (V × List Nat)) (hb : HoeBuilt D h gm.numLabels.length ms) :
    ∃ h' ms', addHigher D gm f lab h = some h' ∧ HoeBuilt D h' gm.numLabels.length (ms ++ ms') ∧ (∀ m ∈ ms', m.2 ≠ []) ∧
      ∀ x, polynomial x ms' = t.table (tupleOf t.vars L x) - t.table (tupleOf t.vars L (fun _ => false)) := by
  obtain ⟨cs, e1, e2, e3⟩ := coefficients_spec hs hm hne hL (List.range (2 ^ f.visSize)) (List.replicate (2 ^ f.visSize) 0)
  have hss : ∀ s ∈ List.range' 1 (2 ^ f.visSize - 1), s ≠ 0 ∧ s < 2 ^ t.vars.length := by
    intro s hs
    rw [hm.visSize] at hs
    simp [List.mem_range'] at hs
    omega
  have hc : ∀ s ∈ List.range' 1 (2 ^ f.visSize - 1), cs[s]? = some (moebius t.vars.length (bitEnergy t L) s) := by
    intro s hs
    obtain ⟨h0, hlt⟩ := hss s hs
    rw [e3 s h0, List.getElem?_replicate, hm.visSize, if_pos hlt]
    simp [moebius]
  obtain ⟨h', e4, hb'⟩ := addSubsets_spec hD hm hle _ h ms hc hb
  refine ⟨h', _, ?_, hb', ?_, fun x => ?_⟩
  · unfold addHigher
    rw [if_neg (by rw [hm.visSize]; omega), e1]
    exact e4
  · intro m hm'
    obtain ⟨s, hs, rfl⟩ := List.mem_map.1 hm'
    obtain ⟨h0, hlt⟩ := hss s hs
    exact varsOf_ne_nil t.vars s h0 hlt
  · have hmain := moebius_sum_pos t.vars.length (bitEnergy t L) (bitsOf t.vars x) (Nat.ofBits_lt_two_pow _)
    rw [bitEnergy_bitsOf, bitEnergy_zero] at hmain
    rw [← hmain, hm.visSize]
    unfold polynomial
    rw [List.map_map]
    congr 1
    apply List.map_congr_left
    intro s _
    simp only [Function.comp, monomial]
    rw [varsOf_all]

theorem addUnary_spec [IsStrictOrderedRing V] {D : Nat} (hD : 2 ≤ D) {gm : GM V} {p : Problem V} (hs : Stores gm p) {f : FactorRec} {t : Term V} (hm : FactorMatches gm f t) (h1 : t.vars.length = 1)
    {lab : Bool → Nat → Option Nat} {L : Bool → Nat → Nat} (hL : LabelChoice gm.numLabels lab L) (h : HOE V) (ms : List (V × List Nat)) (hb : HoeBuilt D h gm.numLabels.length ms) :
    ∃ h' ms', addUnary gm f lab h = some h' ∧ HoeBuilt D h' gm.numLabels.length (ms ++ ms') ∧ (∀ m ∈ ms', m.2 ≠ []) ∧
      ∀ x, polynomial x ms' = t.table (tupleOf t.vars L x) - t.table (tupleOf t.vars L (fun _ => false)) := by
  obtain ⟨v, hv⟩ := List.length_eq_one_iff.1 h1
  have hr : v < gm.numLabels.length := hm.range v (by simp [hv])
  have hne : t.vars ≠ [] := by simp [hv]
  have hl0 := (hL.eq false v _ (List.getElem?_eq_getElem hr)).1
  have hl1 := (hL.eq true v _ (List.getElem?_eq_getElem hr)).1
  have c0 := callFactor_choice hs hm hne hL (fun _ => false)
  have c1 := callFactor_choice hs hm hne hL (fun _ => true)
  obtain ⟨h', e1⟩ := (C71_add hD (.built hb) (t.table (tupleOf t.vars L (fun _ => true)) - t.table (tupleOf t.vars L (fun _ => false))) [] (by simp) (by simp) (by simp)).2 v hr
  refine ⟨h', [(_, [v])], ?_, HoeBuilt.addUnaryTerm _ v h' hb hr e1, by simp, fun x => ?_⟩
  · unfold addUnary
    have hvis := visAt_varAt hm 0 (by omega)
    simp only [varAt, hv, List.getD_cons_zero] at hvis
    rw [hvis]
    simp only
    rw [hl0, hl1]
    simp only
    simp only [tupleOf, hv, List.map_cons, List.map_nil] at c0 c1 e1
    rw [c0, c1]
    exact e1
  · simp only [polynomial, monomial, List.map_cons, List.map_nil, List.sum_cons, List.sum_nil, tupleOf, hv]
    cases hx : x v <;> simp [hx]

/-- The value of a term for given bits: with the labels `LU` for terms of one variable, `LH` for the others. -/
def termAt (LU LH : Bool → Nat → Nat) (t : Term V) (x : Nat → Bool) : V :=
  if t.vars.length = 1 then t.table (tupleOf t.vars LU x) else t.table (tupleOf t.vars LH x)

theorem addFactors_spec [IsStrictOrderedRing V] {D : Nat} (hD : 2 ≤ D) {gm : GM V} {p : Problem V} (hs : Stores gm p) {labU labH : Bool → Nat → Option Nat} {LU LH : Bool → Nat → Nat}
    (hU : LabelChoice gm.numLabels labU LU) (hH : LabelChoice gm.numLabels labH LH) :
    ∀ {fs : List FactorRec} {ts : List (Term V)}, List.Forall₂ (FactorMatches gm) fs ts → (∀ t ∈ ts, t.vars.length ≤ D) → ∀ (h : HOE V) (ms : List (V × List Nat)), HoeBuilt D h gm.numLabels.length ms →
      ∃ h' ms', addFactors D gm labU labH fs h = some h' ∧ HoeBuilt D h' gm.numLabels.length (ms ++ ms') ∧ (∀ m ∈ ms', m.2 ≠ []) ∧
        ∀ x, polynomial x ms' = (ts.map (fun t => termAt LU LH t x)).sum - (ts.map (fun t => termAt LU LH t (fun _ => false))).sum := by
  intro fs ts hfs
  induction hfs with
  | nil => intro _ h ms hb; exact ⟨h, [], rfl, by simpa using hb, by simp, fun x => by simp [polynomial]⟩
  | @cons f t fs ts hm _ ih =>
    intro hle h ms hb
    have hle' : ∀ t ∈ ts, t.vars.length ≤ D := fun u hu => hle u (by simp [hu])
    have hlt := hle t (by simp)
    by_cases h0 : t.vars.length = 0
    · obtain ⟨h', ms', e1, e2, e3, e4⟩ := ih hle' h ms hb
      refine ⟨h', ms', ?_, e2, e3, fun x => ?_⟩
      · unfold addFactors
        rw [if_pos (by rw [hm.visSize]; exact h0)]
        exact e1
      · have hn : t.vars = [] := List.length_eq_zero_iff.1 h0
        rw [e4 x]
        simp [termAt, tupleOf, hn]
    · have step : ∃ h1 ms1, (if f.visSize = 1 then addUnary gm f labU h else addHigher D gm f labH h) = some h1 ∧ HoeBuilt D h1 gm.numLabels.length (ms ++ ms1) ∧ (∀ m ∈ ms1, m.2 ≠ []) ∧
          ∀ x, polynomial x ms1 = termAt LU LH t x - termAt LU LH t (fun _ => false) := by
        rw [hm.visSize]
        unfold termAt
        by_cases h1 : t.vars.length = 1
        · simp only [if_pos h1]
          exact addUnary_spec hD hs hm h1 hU h ms hb
        · simp only [if_neg h1]
          exact addHigher_spec hD hs hm (fun he => h0 (by rw [he]; rfl)) hlt hH h ms hb
      obtain ⟨h1, ms1, e1, e2, e3, e4⟩ := step
      obtain ⟨h', ms', f1, f2, f3, f4⟩ := ih hle' h1 _ e2
      refine ⟨h', ms1 ++ ms', ?_, by simpa using f2, ?_, fun x => ?_⟩
      · unfold addFactors
        rw [if_neg (by rw [hm.visSize]; exact h0), e1]
        exact f1
      · intro m hm'
        rcases List.mem_append.1 hm' with e | e
        · exact e3 m e
        · exact f3 m e
      · have happ : polynomial x (ms1 ++ ms') = polynomial x ms1 + polynomial x ms' := by simp [polynomial]
        rw [happ, e4 x, f4 x]
        simp only [List.map_cons, List.sum_cons]
        ring

end OpenGM.FixFusion
