import Verif.Model.Tentacle
import Verif.Spec.Tentacle
import Verif.Props.Manipulator
/-
C28, tentacle elimination: the start of lockAndTentacelElimination.
-/
namespace OpenGM
open Spec
namespace Manipulator
variable {V : Type}

theorem enc_get {fv : List Bool} {fl : List Nat} {fix : List (Option Nat)} (he : Encodes fv fl fix) {v : Nat} (hv : v < fix.length) :
    fv[v]? = some (!(fix[v]? == some none)) := by
  have : ∃ x, fix[v]? = some x := ⟨_, List.getElem?_eq_getElem hv⟩
  obtain ⟨x, hx⟩ := this
  rcases x with _ | l
  · rw [he.free v hx, hx]; rfl
  · rw [(he.fixed v l hx).1, hx]; rfl

theorem factorDegree_spec {gm : GM V} {fv : List Bool} {fl : List Nat} {fix : List (Option Nat)} (he : Encodes fv fl fix) {f : FactorRec} {t : Term V} (hm : FactorMatches gm f t)
    (hlen : ∀ v ∈ t.vars, v < fix.length) : ∀ (k i d : Nat), i + k = f.visSize → factorDegree gm fv f i k d = some (d + freeCount fix (t.vars.drop i)) := by
  intro k
  induction k with
  | zero =>
    intro i d hi
    have : t.vars.drop i = [] := List.drop_eq_nil_of_le (by rw [← hm.visSize]; omega)
    simp [factorDegree, this, freeCount]
  | succ k ih =>
    intro i d hi
    have hit : i < t.vars.length := by rw [← hm.visSize]; omega
    have h1 := hm.visAt i (by omega)
    rw [List.getElem?_eq_getElem hit] at h1
    have h2 := enc_get he (hlen _ (List.getElem_mem hit))
    rw [List.drop_eq_getElem_cons hit]
    generalize t.vars[i] = v at h1 h2
    simp only [factorDegree, h1, h2]
    by_cases hf : fix[v]? = some none
    · have hb : (fix[v]? == some none) = true := by simp [hf]
      simp only [hb, Bool.not_true]
      rw [ih (i + 1) (d + 1) (by omega)]
      simp [freeCount, hf]
      omega
    · have hb : (fix[v]? == some none) = false := by simpa using hf
      simp only [hb, Bool.not_false]
      rw [ih (i + 1) d (by omega)]
      simp [freeCount, hb]

theorem bumpDegrees_spec {gm : GM V} {fv : List Bool} {fl : List Nat} {fix : List (Option Nat)} (he : Encodes fv fl fix) {f : FactorRec} {t : Term V} (hm : FactorMatches gm f t)
    (hlen : ∀ v ∈ t.vars, v < fix.length) : ∀ (k i : Nat) (deg : List Nat), i + k = f.visSize → deg.length = fix.length →
      ∃ deg', bumpDegrees gm fv f i k deg = some deg' ∧ deg'.length = fix.length ∧
        ∀ v, Free fix v → deg'[v]? = (deg[v]?).map (fun d => d + (t.vars.drop i).count v) := by
  intro k
  induction k with
  | zero =>
    intro i deg hi hd
    have : t.vars.drop i = [] := List.drop_eq_nil_of_le (by rw [← hm.visSize]; omega)
    exact ⟨deg, rfl, hd, by intro v _; simp [this]⟩
  | succ k ih =>
    intro i deg hi hd
    have hit : i < t.vars.length := by rw [← hm.visSize]; omega
    have h1 := hm.visAt i (by omega)
    rw [List.getElem?_eq_getElem hit] at h1
    have hvl := hlen _ (List.getElem_mem hit)
    have h2 := enc_get he hvl
    rw [List.drop_eq_getElem_cons hit]
    generalize t.vars[i] = v at h1 h2 hvl
    simp only [bumpDegrees, h1, h2]
    by_cases hf : fix[v]? = some none
    · have hb : (fix[v]? == some none) = true := by simp [hf]
      simp only [hb, Bool.not_true]
      have hvd : v < deg.length := by omega
      simp only [List.getElem?_eq_getElem hvd, setAt, hvd, if_true]
      obtain ⟨deg', e, hl, hs⟩ := ih (i + 1) (deg.set v (deg[v] + 1)) (by omega) (by simpa using hd)
      refine ⟨deg', e, hl, ?_⟩
      intro w hw
      rw [hs w hw, List.getElem?_set]
      by_cases hwv : v = w
      · subst hwv
        simp [hvd]
        omega
      · simp [hwv]
    · have hb : (fix[v]? == some none) = false := by simpa using hf
      simp only [hb, Bool.not_false]
      obtain ⟨deg', e, hl, hs⟩ := ih (i + 1) deg (by omega) hd
      refine ⟨deg', e, hl, ?_⟩
      intro w hw
      rw [hs w hw]
      have hwv : v ≠ w := by
        rintro rfl
        exact hf hw
      simp [List.count_cons, hwv]

theorem degreeLoop_spec {gm : GM V} {fv : List Bool} {fl : List Nat} {fix : List (Option Nat)} (he : Encodes fv fl fix) (hn : gm.numLabels.length = fix.length) :
    ∀ {fs : List FactorRec} {ts : List (Term V)}, List.Forall₂ (FactorMatches gm) fs ts → ∀ deg : List Nat, deg.length = fix.length →
      ∃ deg', degreeLoop gm fv fs deg = some deg' ∧ deg'.length = fix.length ∧
        ∀ v, Free fix v → deg'[v]? = (deg[v]?).map (fun d => d + ts.countP (fun t => decide (v ∈ t.vars) && decide (2 ≤ freeCount fix t.vars))) := by
  intro fs ts h
  induction h with
  | nil => intro deg hd; exact ⟨deg, rfl, hd, by intro v _; simp⟩
  | @cons f t fs ts hm _ ih =>
    intro deg hd
    have hlen : ∀ v ∈ t.vars, v < fix.length := by intro v hv; rw [← hn]; exact hm.range v hv
    have h1 := factorDegree_spec he hm hlen f.visSize 0 0 (by omega)
    rw [List.drop_zero, Nat.zero_add] at h1
    simp only [degreeLoop, h1]
    by_cases hc : freeCount fix t.vars > 1
    · obtain ⟨deg1, e1, hl1, hs1⟩ := bumpDegrees_spec he hm hlen f.visSize 0 deg (by omega) hd
      obtain ⟨deg2, e2, hl2, hs2⟩ := ih deg1 hl1
      refine ⟨deg2, by simp [hc, e1, e2], hl2, ?_⟩
      intro v hv
      rw [hs2 v hv, hs1 v hv, List.drop_zero]
      have hnd : t.vars.Nodup := hm.sorted.imp (fun h => Nat.ne_of_lt h)
      have hcnt : t.vars.count v = if v ∈ t.vars then 1 else 0 := by
        split
        · rename_i h; exact List.count_eq_one_of_mem hnd h
        · rename_i h; exact List.count_eq_zero_of_not_mem h
      rw [Option.map_map, List.countP_cons]
      congr 1
      funext d
      simp only [Function.comp]
      have h2 : (2 ≤ freeCount fix t.vars) = True := by simp; omega
      rw [hcnt]
      by_cases hvt : v ∈ t.vars
      · simp [hvt, h2]; omega
      · simp [hvt]
    · obtain ⟨deg2, e2, hl2, hs2⟩ := ih deg hd
      refine ⟨deg2, by simp [hc, e2], hl2, ?_⟩
      intro v hv
      rw [hs2 v hv, List.countP_cons]
      have h2 : ¬ (2 ≤ freeCount fix t.vars) := by omega
      simp [h2]

theorem leafLoop_ok {fv : List Bool} {deg : List Nat} (isLeaf : Nat → Bool) : ∀ (vs leafs : List Nat) (pushed tent : List Bool),
    (∀ v ∈ vs, ∃ d x, deg[v]? = some d ∧ fv[v]? = some x ∧ (isLeaf v = true ↔ d ≤ 1 ∧ x = false)) → (∀ v ∈ vs, v < tent.length) → (∀ v ∈ vs, isLeaf v = true → v < pushed.length) →
    leafLoop fv deg vs leafs pushed tent = some (leafs ++ vs.filter isLeaf) := by
  intro vs
  induction vs with
  | nil => intro leafs pushed tent _ _ _; simp [leafLoop]
  | cons v vs ih =>
    intro leafs pushed tent h1 h2 h3
    obtain ⟨d, x, e1, e2, e3⟩ := h1 v (by simp)
    simp only [leafLoop, e1, e2]
    by_cases hl : isLeaf v = true
    · have hp := h3 v (by simp) hl
      have ht := h2 v (by simp)
      rw [if_pos (e3.mp hl)]
      simp only [setAt, hp, ht, if_true]
      rw [ih _ _ _ (fun w hw => h1 w (by simp [hw])) (fun w hw => by simpa using h2 w (by simp [hw])) (fun w hw hwl => by simpa using h3 w (by simp [hw]) hwl)]
      simp [hl]
    · rw [if_neg (fun h => hl (e3.mpr h))]
      rw [ih _ _ _ (fun w hw => h1 w (by simp [hw])) (fun w hw => h2 w (by simp [hw])) (fun w hw hwl => h3 w (by simp [hw]) hwl)]
      simp [hl]

theorem leafLoop_ub {fv : List Bool} {deg : List Nat} (isLeaf : Nat → Bool) : ∀ (vs leafs : List Nat) (pushed tent : List Bool),
    (∀ v ∈ vs, ∃ d x, deg[v]? = some d ∧ fv[v]? = some x ∧ (isLeaf v = true ↔ d ≤ 1 ∧ x = false)) → (∃ v ∈ vs, isLeaf v = true ∧ pushed.length ≤ v) →
    leafLoop fv deg vs leafs pushed tent = none := by
  intro vs
  induction vs with
  | nil => rintro leafs pushed tent _ ⟨v, hv, _⟩; simp at hv
  | cons v vs ih =>
    rintro leafs pushed tent h1 ⟨w, hw, hwl, hwp⟩
    obtain ⟨d, x, e1, e2, e3⟩ := h1 v (by simp)
    simp only [leafLoop, e1, e2]
    by_cases hwv : w = v
    · subst hwv
      rw [if_pos (e3.mp hwl)]
      have : ¬ w < pushed.length := by omega
      simp [setAt, this]
    · have hw' : w ∈ vs := by
        rcases List.mem_cons.mp hw with h | h
        · exact absurd h hwv
        · exact h
      by_cases hl : d ≤ 1 ∧ x = false
      · rw [if_pos hl]
        by_cases hp : v < pushed.length
        · by_cases ht : v < tent.length
          · simp only [setAt, hp, ht, if_true]
            exact ih _ _ _ (fun w hw => h1 w (by simp [hw])) ⟨w, hw', hwl, by simpa using hwp⟩
          · simp [setAt, hp, ht]
        · simp [setAt, hp]
      · rw [if_neg hl]
        exact ih _ _ _ (fun w hw => h1 w (by simp [hw])) ⟨w, hw', hwl, hwp⟩

/-- Decides `Leaf`. -/
def isLeaf (p : Problem V) (fix : List (Option Nat)) (v : Nat) : Bool := (fix[v]? == some none) && decide (linkCount p fix v ≤ 1)

theorem isLeaf_iff (p : Problem V) (fix : List (Option Nat)) (v : Nat) : isLeaf p fix v = true ↔ Leaf p fix v := by
  simp [isLeaf, Leaf, Free]

/-- All histories: the degrees are computed, and the loop over the variables meets exactly the leafs. -/
theorem degrees_inv {o : Operation V} {gm : GM V} {mode : Mode} {p : Problem V} {s : Fixing} {m : Manip V} (h : Inv o gm mode p s m) :
    ∃ deg, degreeLoop m.gm m.fixVariable m.gm.factors (List.replicate m.gm.numberOfVariables 0) = some deg ∧
      ∀ v ∈ List.range m.gm.numberOfVariables, ∃ d x, deg[v]? = some d ∧ m.fixVariable[v]? = some x ∧ (isLeaf p s.fix v = true ↔ d ≤ 1 ∧ x = false) := by
  have hd := h.d
  have hn : m.gm.numLabels.length = s.fix.length := by rw [hd.rep.labels, hd.len]
  have hnv : m.gm.numberOfVariables = s.fix.length := hn
  obtain ⟨deg, e, hl, hs⟩ := degreeLoop_spec hd.enc hn hd.rep.factors (List.replicate m.gm.numberOfVariables 0) (by rw [List.length_replicate, hnv])
  refine ⟨deg, e, ?_⟩
  intro v hv
  have hv' : v < s.fix.length := by rw [← hnv]; exact List.mem_range.mp hv
  have hvd : v < deg.length := by omega
  refine ⟨deg[v], _, List.getElem?_eq_getElem hvd, enc_get hd.enc hv', ?_⟩
  by_cases hf : s.fix[v]? = some none
  · have := hs v hf
    rw [List.getElem?_eq_getElem hvd, List.getElem?_replicate, if_pos (by rw [hnv]; exact hv')] at this
    simp only [Option.map_some, Nat.zero_add, Option.some.injEq] at this
    simp [isLeaf, hf, linkCount, this]
    exact decide_eq_true_iff
  · simp [isLeaf, hf]

/-- C28, tentacle elimination, the start, what holds: after every valid history, lockAndTentacelElimination returns at once on a locked manipulator, throws in mode DROP, and otherwise, if no leaf has an index at or above the number of factors, finds exactly the
leafs (the free variables which at most one factor links to other free variables), in order, and locks the manipulator. Missing: what it does with the leafs. -/
theorem C28_tentacle_partial (o : Operation V) (ho : o.IsCommMonoid) (gm : GM V) (p : Problem V) (hb : BuiltModel gm p) (hpos : ∀ n ∈ p.numLabels, 0 < n)
    (mode : Mode) (ops : List FixOp) (hv : ValidFixing p.numLabels (Fixing.init p.numLabels.length) ops)
    (hsub : .buildSub ∈ ops → mode = .fix → ∀ t ∈ p.terms, t.vars ≠ []) :
    ∃ m, run o (construct gm mode) ops = some m ∧
      ((fixingAfter p.numLabels.length ops).locked = true → ∃ r, tentacleStart m = some r ∧ r = .returned) ∧
      ((fixingAfter p.numLabels.length ops).locked = false → mode = .drop → ∃ r, tentacleStart m = some r ∧ r = .thrown) ∧
      ((fixingAfter p.numLabels.length ops).locked = false → mode = .fix → (∀ v, Leaf p (fixingAfter p.numLabels.length ops).fix v → v < p.terms.length) →
        ∃ m' vs, tentacleStart m = some (.leafs m' vs) ∧ m'.locked = true ∧ vs.Pairwise (· < ·) ∧ ∀ v, v ∈ vs ↔ Leaf p (fixingAfter p.numLabels.length ops).fix v) := by
  obtain ⟨m, e, h⟩ := inv_run ho ops _ _ (inv_construct o hb.represents hpos mode) hv hsub
  replace h : Inv o gm mode p (fixingAfter p.numLabels.length ops) m := h
  generalize fixingAfter p.numLabels.length ops = s at *
  refine ⟨m, e, ?_, ?_, ?_⟩
  · intro hl
    exact ⟨_, by rw [tentacleStart, h.locked, hl, if_pos rfl], rfl⟩
  · intro hl hmode
    refine ⟨_, ?_, rfl⟩
    rw [tentacleStart, h.locked, hl, h.mode_, hmode]
    rfl
  · intro hl hmode hleaf
    obtain ⟨deg, e1, h1⟩ := degrees_inv h
    have hd := h.d
    have hnf : m.gm.numberOfFactors = p.terms.length := List.Forall₂.length_eq hd.rep.factors
    have e2 := leafLoop_ok (isLeaf p s.fix) (List.range m.gm.numberOfVariables) [] (List.replicate m.gm.numberOfFactors false) (List.replicate m.gm.numberOfVariables false) h1
      (by intro v hv; simpa using hv) (by
        intro v _ hvl
        rw [List.length_replicate, hnf]
        exact hleaf v ((isLeaf_iff p s.fix v).mp hvl))
    refine ⟨_, _, by simp only [tentacleStart, h.locked, hl, h.mode_, hmode, e1, e2]; rfl, rfl, ?_, ?_⟩
    · rw [List.nil_append]
      exact (List.pairwise_lt_range).filter _
    · intro v
      rw [List.nil_append, List.mem_filter, isLeaf_iff, List.mem_range]
      constructor
      · exact fun h => h.2
      · intro hvl
        refine ⟨?_, hvl⟩
        have : v < s.fix.length := (List.getElem?_eq_some_iff.mp hvl.1).1
        have hn : m.gm.numberOfVariables = s.fix.length := by
          show m.gm.numLabels.length = s.fix.length
          rw [hd.rep.labels, hd.len]
        omega

/-- C28, tentacle elimination, violated: `pushed2Leafs` has one entry for each factor but is indexed by variables. So for every model and every history, lockAndTentacelElimination writes behind the end of a vector whenever a leaf
has an index at or above the number of factors, as for the last variable of every tree without unary factors; the smallest model has two variables and one factor. -/
theorem C28_tentacle_violated (o : Operation V) (ho : o.IsCommMonoid) (gm : GM V) (p : Problem V) (hb : BuiltModel gm p) (hpos : ∀ n ∈ p.numLabels, 0 < n)
    (ops : List FixOp) (hv : ValidFixing p.numLabels (Fixing.init p.numLabels.length) ops)
    (hsub : .buildSub ∈ ops → ∀ t ∈ p.terms, t.vars ≠ []) (hl : (fixingAfter p.numLabels.length ops).locked = false)
    {v : Nat} (hleaf : Leaf p (fixingAfter p.numLabels.length ops).fix v) (hge : p.terms.length ≤ v) :
    ∃ m, run o (construct gm .fix) ops = some m ∧ (tentacleStart m).isNone = true := by
  obtain ⟨m, e, h⟩ := inv_run ho ops _ _ (inv_construct o hb.represents hpos .fix) hv (fun h _ => hsub h)
  replace h : Inv o gm .fix p (fixingAfter p.numLabels.length ops) m := h
  generalize fixingAfter p.numLabels.length ops = s at *
  refine ⟨m, e, ?_⟩
  obtain ⟨deg, e1, h1⟩ := degrees_inv h
  have hd := h.d
  have hnf : m.gm.numberOfFactors = p.terms.length := List.Forall₂.length_eq hd.rep.factors
  have hn : m.gm.numberOfVariables = s.fix.length := by
    show m.gm.numLabels.length = s.fix.length
    rw [hd.rep.labels, hd.len]
  have e2 := leafLoop_ub (isLeaf p s.fix) (List.range m.gm.numberOfVariables) [] (List.replicate m.gm.numberOfFactors false) (List.replicate m.gm.numberOfVariables false) h1
    ⟨v, by rw [List.mem_range, hn]; exact (List.getElem?_eq_some_iff.mp hleaf.1).1, (isLeaf_iff p s.fix v).mpr hleaf, by rw [List.length_replicate, hnf]; exact hge⟩
  simp only [tentacleStart, h.locked, hl, h.mode_, e1, e2]
  rfl

/-! ### concrete cases -/

/-- Two variables and one factor. -/
def pairOps : List (BuildOp Int) := [.addVariable 2, .addVariable 2, .addFunction 0 ⟨[2, 2], fun c => c.foldl (fun a l => a + (l : Int)) 0⟩, .addFactor 0 [0, 1]]

theorem pairOps_valid : ValidHistory 1 Built.empty pairOps := by
  simp [pairOps, ValidHistory, BuildOp.Valid, BuildOp.apply, Built.empty, restrict]

/-- The second variable is a leaf, and its index is not below the number of factors. -/
example : ∃ gm m, run intAdd (construct gm .fix) [] = some m ∧ (tentacleStart m).isNone = true := by
  obtain ⟨gm, hb⟩ := builtModel_exists pairOps_valid
  have hnl : (builtAfter pairOps).problem.numLabels = [2, 2] := by decide
  obtain ⟨m, h⟩ := C28_tentacle_violated intAdd intAdd_comm gm _ hb (by rw [hnl]; decide) [] trivial (by simp) rfl (v := 1)
    ⟨by rw [hnl]; rfl, by rw [hnl]; decide⟩ (by decide)
  exact ⟨gm, m, h⟩

/-- In the chain with four factors the variables 0 and 3 are the leafs. -/
example : ∃ gm m m' vs, run intAdd (construct gm .fix) [] = some m ∧ tentacleStart m = some (.leafs m' vs) ∧ 0 ∈ vs ∧ 3 ∈ vs ∧ 1 ∉ vs := by
  obtain ⟨gm, hb⟩ := builtModel_exists chainOps_valid
  have hnl : (builtAfter chainOps).problem.numLabels = [2, 3, 2, 2] := by decide
  obtain ⟨m, h, _, _, h3⟩ := C28_tentacle_partial intAdd intAdd_comm gm _ hb (by rw [hnl]; decide) .fix [] trivial (by simp)
  obtain ⟨m', vs, e, _, _, hl⟩ := h3 rfl rfl (by
    intro v hv
    have := (List.getElem?_eq_some_iff.mp hv.1).1
    rw [hnl] at this
    exact this)
  refine ⟨gm, m, m', vs, h, e, (hl 0).mpr ⟨by rw [hnl]; rfl, by rw [hnl]; decide⟩, (hl 3).mpr ⟨by rw [hnl]; rfl, by rw [hnl]; decide⟩, ?_⟩
  intro h1
  have := ((hl 1).mp h1).2
  rw [hnl] at this
  revert this
  decide

end Manipulator
end OpenGM
