import Verif.Model.Manipulator
import Verif.Spec.Fixing
import Verif.Lemmas.GraphicalModel
import Verif.Lemmas.ViewFix
/-
GraphicalModelManipulator: what happens to one factor.
-/
namespace OpenGM
open Spec
namespace Manipulator
variable {V : Type}

/-- Fixed label of a variable. -/
def fx (fix : List (Option Nat)) (v : Nat) : Option Nat := (fix[v]?).getD none

/-- The members `fixVariable_`, `fixVariableLabel_` describe the fixing. -/
structure Encodes (fv : List Bool) (fl : List Nat) (fix : List (Option Nat)) : Prop where
  lenV : fv.length = fix.length
  lenL : fl.length = fix.length
  fixed : ∀ v l : Nat, fix[v]? = some (some l) → fv[v]? = some true ∧ fl[v]? = some l
  free : ∀ v : Nat, fix[v]? = some none → fv[v]? = some false

/-- Is the variable free? -/
def isFree (fix : List (Option Nat)) (v : Nat) : Bool := (fx fix v).isNone

/-- Positions and labels of the fixed variables, positions counted from `i`. -/
def fixPairs (fix : List (Option Nat)) : Nat → List Nat → List (Nat × Nat)
  | _, [] => []
  | i, v :: vs =>
    match fx fix v with
    | some l => (i, l) :: fixPairs fix (i + 1) vs
    | none => fixPairs fix (i + 1) vs

theorem fixPairs_mem (fix : List (Option Nat)) : ∀ (vs : List Nat) (i p l : Nat), (p, l) ∈ fixPairs fix i vs →
    i ≤ p ∧ p < i + vs.length ∧ ∃ v, vs[p - i]? = some v ∧ fx fix v = some l
  | [], i, p, l, h => by simp [fixPairs] at h
  | v :: vs, i, p, l, h => by
    have ih := fixPairs_mem fix vs (i + 1) p l
    have step : (p, l) ∈ fixPairs fix (i + 1) vs → i ≤ p ∧ p < i + (v :: vs).length ∧ ∃ w, (v :: vs)[p - i]? = some w ∧ fx fix w = some l := by
      intro h
      obtain ⟨h1, h2, w, h3, h4⟩ := ih h
      refine ⟨by omega, by simp only [List.length_cons]; omega, w, ?_, h4⟩
      rw [show p - i = (p - (i + 1)) + 1 by omega]
      simpa using h3
    unfold fixPairs at h
    cases hf : fx fix v with
    | none => simp only [hf] at h; exact step h
    | some l' =>
      simp only [hf, List.mem_cons, Prod.mk.injEq] at h
      rcases h with ⟨rfl, rfl⟩ | h
      · exact ⟨by omega, by simp, v, by simp, hf⟩
      · exact step h

theorem fixPairs_sorted (fix : List (Option Nat)) : ∀ (vs : List Nat) (i : Nat), StrictlySorted ((fixPairs fix i vs).map Prod.fst)
  | [], i => by simp [fixPairs, StrictlySorted]
  | v :: vs, i => by
    unfold fixPairs
    cases fx fix v with
    | none => exact fixPairs_sorted fix vs (i + 1)
    | some l =>
      simp only [List.map_cons]
      refine List.pairwise_cons.mpr ⟨?_, fixPairs_sorted fix vs (i + 1)⟩
      intro p hp
      obtain ⟨e, he, rfl⟩ := List.mem_map.mp hp
      have := (fixPairs_mem fix vs (i + 1) e.1 e.2 he).1
      omega

theorem fixPairs_iff (fix : List (Option Nat)) : ∀ (vs : List Nat) (i j v : Nat), vs[j]? = some v →
    (i + j ∈ (fixPairs fix i vs).map Prod.fst ↔ isFree fix v = false)
  | [], i, j, v, h => by simp at h
  | w :: vs, i, 0, v, h => by
    simp only [List.getElem?_cons_zero, Option.some.injEq] at h
    subst h
    unfold fixPairs isFree
    have hnot : i ∉ (fixPairs fix (i + 1) vs).map Prod.fst := by
      intro hm
      obtain ⟨e, he, h1⟩ := List.mem_map.mp hm
      have := (fixPairs_mem fix vs (i + 1) e.1 e.2 he).1
      omega
    cases hf : fx fix w with
    | none => simpa using hnot
    | some l => simp
  | w :: vs, i, j + 1, v, h => by
    have ih := fixPairs_iff fix vs (i + 1) j v (by simpa using h)
    rw [show i + (j + 1) = i + 1 + j by omega]
    unfold fixPairs
    cases hf : fx fix w with
    | none => exact ih
    | some l =>
      simp only [List.map_cons, List.mem_cons]
      rw [ih]
      constructor
      · rintro (h | h)
        · omega
        · exact h
      · exact Or.inr

theorem drop_fixPairs (fix : List (Option Nat)) (g : Nat → Nat) (vs : List Nat) :
    dropPositions ((fixPairs fix 0 vs).map Prod.fst) (vs.map g) = (vs.filter (isFree fix)).map g := by
  have key : ∀ (ws : List Nat) (d : Nat), (∀ j v : Nat, ws[j]? = some v → vs[d + j]? = some v) →
      (((ws.map g).zipIdx d).filter (fun e => !((fixPairs fix 0 vs).map Prod.fst).contains e.2)).map (fun e => e.1) =
        (ws.filter (isFree fix)).map g := by
    intro ws
    induction ws with
    | nil => intro d _; rfl
    | cons w ws ih =>
      intro d hd
      have h0 := hd 0 w (by simp)
      have hiff := fixPairs_iff fix vs 0 d w (by simpa using h0)
      have ih' := ih (d + 1) (fun j v h => by rw [show d + 1 + j = d + (j + 1) by omega]; exact hd (j + 1) v (by simpa using h))
      rw [List.map_cons, List.zipIdx_cons]
      by_cases hf : isFree fix w = true
      · rw [List.filter_cons_of_pos, List.filter_cons_of_pos hf, List.map_cons, List.map_cons, ih']
        simp only [List.contains_eq_mem, Bool.not_eq_true', decide_eq_false_iff_not]
        intro hm
        rw [hiff.mp (by simpa using hm)] at hf
        cases hf
      · rw [List.filter_cons_of_neg, List.filter_cons_of_neg hf, ih']
        simp only [List.contains_eq_mem, Bool.not_eq_true', decide_eq_false_iff_not, not_not]
        simpa using hiff.mpr (by simpa using hf)
  exact key vs 0 (fun j v h => by simpa using h)

theorem length_fixPairs (fix : List (Option Nat)) : ∀ (vs : List Nat) (i : Nat),
    (fixPairs fix i vs).length + (vs.filter (isFree fix)).length = vs.length
  | [], i => rfl
  | v :: vs, i => by
    have ih := length_fixPairs fix vs (i + 1)
    unfold fixPairs
    cases hf : fx fix v with
    | none =>
      rw [List.filter_cons_of_pos (by simp [isFree, hf])]
      simp only [List.length_cons]
      omega
    | some l =>
      rw [List.filter_cons_of_neg (by simp [isFree, hf])]
      simp only [List.length_cons]
      omega

/-- The last free variable's subproblem. -/
def lastSub (s : Nat → Nat) : List Nat → Nat → Nat
  | [], d => d
  | v :: vs, _ => lastSub s vs (s v)

theorem fx_some {fix : List (Option Nat)} {v l : Nat} (h : fx fix v = some l) : fix[v]? = some (some l) := by
  unfold fx at h
  cases hv : fix[v]? with
  | none => simp [hv] at h
  | some a => simp [hv] at h; simp [h]

theorem fx_none {fix : List (Option Nat)} {v : Nat} (hlt : v < fix.length) (h : fx fix v = none) : fix[v]? = some none := by
  unfold fx at h
  rw [List.getElem?_eq_getElem hlt] at h ⊢
  simp at h
  rw [h]

theorem splitLoop_spec {gm : GM V} {f : FactorRec} {t : Term V} (hm : FactorMatches gm f t) {fv : List Bool} {fl varMap v2s : List Nat}
    {fix : List (Option Nat)} (he : Encodes fv fl fix) (hfix : fix.length = gm.numLabels.length) (r s : Nat → Nat)
    (hr : ∀ v ∈ t.vars, isFree fix v = true → varMap[v]? = some (r v) ∧ v2s[v]? = some (s v)) :
    ∀ (k i : Nat) (F : List (Nat × Nat)) (M : List Nat) (d : Nat), i + k = f.visSize →
      splitLoop gm f fv fl varMap v2s i k F M d = some (F ++ fixPairs fix i (t.vars.drop i), M ++ ((t.vars.drop i).filter (isFree fix)).map r,
        lastSub s ((t.vars.drop i).filter (isFree fix)) d) := by
  intro k
  induction k with
  | zero =>
    intro i F M d hik
    have : t.vars.drop i = [] := by
      apply List.drop_eq_nil_of_le
      rw [← hm.visSize]
      omega
    simp [splitLoop, this, fixPairs, lastSub]
  | succ k ih =>
    intro i F M d hik
    have hi : i < f.visSize := by omega
    have hit : i < t.vars.length := by rw [← hm.visSize]; exact hi
    have hvis := hm.visAt i hi
    rw [List.getElem?_eq_getElem hit] at hvis
    have hmem : t.vars[i] ∈ t.vars := List.getElem_mem hit
    have hlt : t.vars[i] < fix.length := by rw [hfix]; exact hm.range _ hmem
    rw [List.drop_eq_getElem_cons hit]
    generalize t.vars[i] = w at *
    unfold splitLoop
    rw [hvis]
    simp only
    cases hf : fx fix w with
    | some l =>
      obtain ⟨h1, h2⟩ := he.fixed w l (fx_some hf)
      rw [h1]
      simp only [h2]
      rw [ih (i + 1) _ _ _ (by omega)]
      simp [fixPairs, hf, isFree]
    | none =>
      have h1 := he.free w (fx_none hlt hf)
      obtain ⟨h2, h3⟩ := hr w hmem (by simp [isFree, hf])
      rw [h1]
      simp only [h2, h3]
      rw [ih (i + 1) _ _ _ (by omega)]
      simp [fixPairs, hf, isFree, lastSub]

theorem factorShape_spec {gm : GM V} {f : FactorRec} {t : Term V} (hm : FactorMatches gm f t) :
    ∀ (k i : Nat), i + k = f.visSize → factorShape gm f i k = some (restrict gm.numLabels (t.vars.drop i)) := by
  intro k
  induction k with
  | zero =>
    intro i hik
    have : t.vars.drop i = [] := by
      apply List.drop_eq_nil_of_le
      rw [← hm.visSize]
      omega
    simp [factorShape, this, restrict]
  | succ k ih =>
    intro i hik
    have hi : i < f.visSize := by omega
    have hit : i < t.vars.length := by rw [← hm.visSize]; exact hi
    have hvis := hm.visAt i hi
    rw [List.getElem?_eq_getElem hit] at hvis
    have hlt := hm.range _ (List.getElem_mem hit)
    rw [List.drop_eq_getElem_cons hit]
    generalize t.vars[i] = w at *
    unfold factorShape
    rw [hvis]
    simp only [List.getElem?_eq_getElem hlt]
    rw [ih (i + 1) (by omega)]
    simp [restrict, hlt]

theorem fixedStates_spec {gm : GM V} {f : FactorRec} {t : Term V} (hm : FactorMatches gm f t) {fv : List Bool} {fl : List Nat}
    {fix : List (Option Nat)} (he : Encodes fv fl fix) (hfix : fix.length = gm.numLabels.length) (x : List Nat) (hx : Respects fix x)
    (hall : ∀ v ∈ t.vars, isFree fix v = false) :
    ∀ (k i : Nat), i + k = f.visSize → fixedStates gm f fl i k = some (restrict x (t.vars.drop i)) := by
  intro k
  induction k with
  | zero =>
    intro i hik
    have : t.vars.drop i = [] := by
      apply List.drop_eq_nil_of_le
      rw [← hm.visSize]
      omega
    simp [fixedStates, this, restrict]
  | succ k ih =>
    intro i hik
    have hi : i < f.visSize := by omega
    have hit : i < t.vars.length := by rw [← hm.visSize]; exact hi
    have hvis := hm.visAt i hi
    rw [List.getElem?_eq_getElem hit] at hvis
    have hmem : t.vars[i] ∈ t.vars := List.getElem_mem hit
    have hfree := hall _ hmem
    rw [List.drop_eq_getElem_cons hit]
    generalize t.vars[i] = w at *
    unfold fixedStates
    rw [hvis]
    simp only
    cases hf : fx fix w with
    | none => simp [isFree, hf] at hfree
    | some l =>
      have h2 := he.fixed w l (fx_some hf)
      have h3 := hx w l (fx_some hf)
      rw [h2.2]
      simp only
      rw [ih (i + 1) (by omega)]
      simp [restrict, h3]

theorem addConstant_spec (o : Operation V) {gm : GM V} {f : FactorRec} {t : Term V} (hm : FactorMatches gm f t) {fv : List Bool} {fl : List Nat}
    {fix : List (Option Nat)} (he : Encodes fv fl fix) (hfix : fix.length = gm.numLabels.length) (x : List Nat) (hx : Respects fix x)
    (hlen : x.length = gm.numLabels.length) (hb : ∀ v l n : Nat, x[v]? = some l → gm.numLabels[v]? = some n → l < n)
    (hall : ∀ v ∈ t.vars, isFree fix v = false) (hne : t.vars ≠ []) (c : V) :
    addConstant o gm f fl c = some (o.op c (t.value x)) := by
  unfold addConstant
  rw [fixedStates_spec hm he hfix x hx hall f.visSize 0 (by omega)]
  simp only [List.drop_zero]
  have := callFactor_spec hm x [] hlen hb (fun h => absurd h hne)
  rw [List.append_nil] at this
  rw [this]
  rfl

/-- What a term of a modified model says about a term of the original model. `r` maps free variables to variables of the modified model. -/
def Mirrors (p : Problem V) (fix : List (Option Nat)) (r : Nat → Nat) (t : Term V) (u : Term (Option V)) : Prop :=
  u.vars = (t.vars.filter (isFree fix)).map r ∧
  ∀ conf x : List Nat, p.Labeling x → Respects fix x → (∀ v ∈ t.vars, isFree fix v = true → conf[r v]? = x[v]?) →
    u.value conf = some (t.value x)

theorem restrict_image {fix : List (Option Nat)} {vs : List Nat} {r : Nat → Nat} {a b : List Nat}
    (h : ∀ v ∈ vs, isFree fix v = true → a[r v]? = b[v]?) :
    restrict a ((vs.filter (isFree fix)).map r) = restrict b (vs.filter (isFree fix)) := by
  unfold restrict
  rw [List.map_map]
  apply List.map_congr_left
  intro v hv
  obtain ⟨h1, h2⟩ := List.mem_filter.mp hv
  simp [h v h1 h2]

theorem addTerm_spec {W : Type} {g : GM W} {q : Problem W} (hg : Represents g q) {ty : Nat} (hty : ty < g.functions.length) (fn : Fn W)
    (vars : List Nat) (hs : vars.Pairwise (· < ·)) (hr : ∀ v ∈ vars, v < g.numLabels.length) (hsh : fn.shape = restrict g.numLabels vars) :
    ∃ g', addTerm g ty (some fn) vars = some g' ∧ Represents g' ⟨q.numLabels, q.terms ++ [⟨vars, fn.table⟩]⟩ ∧
      g'.functions.length = g.functions.length := by
  have ht : g.functions[ty]? = some g.functions[ty] := List.getElem?_eq_getElem hty
  unfold addTerm
  simp only [GM.addFunction, ht]
  have hrep := represents_functions hg ty g.functions[ty] fn ht
  have hget := getFunction_new g ty g.functions[ty] fn ht
  obtain ⟨g', h1, h2, h3⟩ := represents_addFactor hrep ⟨g.functions[ty].length, ty⟩ ⟨vars, fn.table⟩ fn hs hr hget hsh (fun _ _ => rfl)
  simp only at h1
  rw [h1]
  exact ⟨g', rfl, h2, by rw [h3]; simp⟩

/-- Hypotheses on the place of the free variables of a term in a modified model with numbers of labels `sh`. -/
structure Placed (numLabels : List Nat) (fix : List (Option Nat)) (r : Nat → Nat) (sh : List Nat) (vars : List Nat) : Prop where
  labels : ∀ v ∈ vars, isFree fix v = true → sh[r v]? = numLabels[v]?
  mono : ∀ v ∈ vars, ∀ w ∈ vars, isFree fix v = true → isFree fix w = true → v < w → r v < r w

theorem Placed.sorted {numLabels : List Nat} {fix : List (Option Nat)} {r : Nat → Nat} {sh vars : List Nat}
    (h : Placed numLabels fix r sh vars) (hs : vars.Pairwise (· < ·)) : ((vars.filter (isFree fix)).map r).Pairwise (· < ·) := by
  rw [List.pairwise_map]
  refine List.Pairwise.imp_of_mem ?_ (hs.filter (isFree fix))
  intro a b ha hb hab
  obtain ⟨h1, h2⟩ := List.mem_filter.mp ha
  obtain ⟨h3, h4⟩ := List.mem_filter.mp hb
  exact h.mono a h1 b h3 h2 h4 hab

theorem Placed.range {numLabels : List Nat} {fix : List (Option Nat)} {r : Nat → Nat} {sh vars : List Nat}
    (h : Placed numLabels fix r sh vars) (hr : ∀ v ∈ vars, v < numLabels.length) :
    ∀ c ∈ (vars.filter (isFree fix)).map r, c < sh.length := by
  intro c hc
  obtain ⟨v, hv, rfl⟩ := List.mem_map.mp hc
  obtain ⟨h1, h2⟩ := List.mem_filter.mp hv
  have := h.labels v h1 h2
  rw [List.getElem?_eq_getElem (hr v h1)] at this
  exact (List.getElem?_eq_some_iff.mp this).1

/-- A factor without fixed variables. -/
theorem addTerm_view' {gm : GM V} {p : Problem V} (hp : Represents gm p) {f : FactorRec} {t : Term V} (hm : FactorMatches gm f t)
    {fix : List (Option Nat)} {r : Nat → Nat} {g : GM (Option V)} {q : Problem (Option V)} (hg : Represents g q) {ty : Nat} (hty : ty < g.functions.length)
    (hpl : Placed gm.numLabels fix r g.numLabels t.vars) (hall : ∀ v ∈ t.vars, isFree fix v = true) :
    ∃ g' u, addTerm g ty (viewFunction gm f) ((t.vars.filter (isFree fix)).map r) = some g' ∧
      Represents g' ⟨q.numLabels, q.terms ++ [u]⟩ ∧ g'.functions.length = g.functions.length ∧ Mirrors p fix r t u := by
  unfold viewFunction
  rw [factorShape_spec hm f.visSize 0 (by omega), List.drop_zero, Option.map_some]
  have hfilter : t.vars.filter (isFree fix) = t.vars := List.filter_eq_self.mpr hall
  obtain ⟨g', h1, h2, h3⟩ := addTerm_spec hg hty ⟨restrict gm.numLabels t.vars, fun labels => gm.callFactor f (labels ++ [0])⟩
    ((t.vars.filter (isFree fix)).map r) (hpl.sorted hm.sorted) (hpl.range hm.range) (by
      rw [restrict_image hpl.labels, hfilter])
  refine ⟨g', _, h1, h2, h3, rfl, ?_⟩
  intro conf x hx hresp hconf
  simp only [Term.value]
  rw [restrict_image hconf, hfilter]
  exact callFactor_spec hm x [0] (by rw [hp.labels]; exact hx.1) (by rw [hp.labels]; exact hx.2) (fun _ => ⟨[], rfl⟩)

theorem addTerm_view {gm : GM V} {p : Problem V} (hp : Represents gm p) {f : FactorRec} {t : Term V} (hm : FactorMatches gm f t)
    {fix : List (Option Nat)} {r : Nat → Nat} {g : GM (Option V)} {q : Problem (Option V)} (hg : Represents g q) (hty : 1 < g.functions.length)
    (hpl : Placed gm.numLabels fix r g.numLabels t.vars) (hall : ∀ v ∈ t.vars, isFree fix v = true) :
    ∃ g' u, addTerm g 1 (viewFunction gm f) ((t.vars.filter (isFree fix)).map r) = some g' ∧
      Represents g' ⟨q.numLabels, q.terms ++ [u]⟩ ∧ g'.functions.length = g.functions.length ∧ Mirrors p fix r t u :=
  addTerm_view' hp hm hg hty hpl hall

theorem mapM_eq_some_map {α β : Type} {l : List α} {g : α → Option β} {h : α → β} (hg : ∀ a ∈ l, g a = some (h a)) :
    l.mapM g = some (l.map h) := by
  induction l with
  | nil => rfl
  | cons a l ih =>
    rw [List.mapM_cons, hg a (by simp), ih (fun b hb => hg b (by simp [hb]))]
    rfl

/-- A factor with fixed and free variables. -/
theorem addTerm_viewFix' {gm : GM V} {p : Problem V} (hp : Represents gm p) {f : FactorRec} {t : Term V} (hm : FactorMatches gm f t)
    {fix : List (Option Nat)} (hfix : fix.length = gm.numLabels.length)
    {r : Nat → Nat} {g : GM (Option V)} {q : Problem (Option V)} (hg : Represents g q) {ty : Nat} (hty : ty < g.functions.length)
    (hpl : Placed gm.numLabels fix r g.numLabels t.vars) (hne : t.vars ≠ []) :
    ∃ g' u, addTerm g ty (viewFixFunction gm f (fixPairs fix 0 t.vars)) ((t.vars.filter (isFree fix)).map r) = some g' ∧
      Represents g' ⟨q.numLabels, q.terms ++ [u]⟩ ∧ g'.functions.length = g.functions.length ∧ Mirrors p fix r t u := by
  unfold viewFixFunction
  rw [factorShape_spec hm f.visSize 0 (by omega), List.drop_zero]
  simp only
  have hsorted := fixPairs_sorted fix t.vars 0
  have hrange : ∀ i ∈ (fixPairs fix 0 t.vars).map Prod.fst, i < (restrict gm.numLabels t.vars).length := by
    intro i hi
    obtain ⟨e, he, rfl⟩ := List.mem_map.mp hi
    have := (fixPairs_mem fix t.vars 0 e.1 e.2 he).2.1
    simpa [restrict] using this
  generalize hF : (⟨restrict gm.numLabels t.vars, fun labels => gm.callFactor f labels⟩ : FactorOps.Fn V) = F
  have hFs : F.shape = restrict gm.numLabels t.vars := by rw [← hF]
  have hFe : F.eval = fun labels => gm.callFactor f labels := by rw [← hF]
  have hlen := length_fixPairs fix t.vars 0
  have hle : (fixPairs fix 0 t.vars).length ≤ F.shape.length := by rw [hFs]; simp only [restrict, List.length_map]; omega
  obtain ⟨v, hv⟩ : ∃ v, ViewFix.construct F (fixPairs fix 0 t.vars) = some v := ⟨_, if_pos hle⟩
  rw [hv]
  simp only
  have hdrop : dropPositions ((fixPairs fix 0 t.vars).map Prod.fst) F.shape = restrict gm.numLabels (t.vars.filter (isFree fix)) := by
    rw [hFs]
    exact drop_fixPairs fix _ t.vars
  have hdim : ViewFix.dimension v = (restrict gm.numLabels (t.vars.filter (isFree fix))).length := by
    have : ViewFix.dimension v = F.shape.length - (fixPairs fix 0 t.vars).length := by
      rw [ViewFix.construct, if_pos hle] at hv
      cases hv
      rfl
    rw [this, hFs]
    simp only [restrict, List.length_map]
    omega
  have hshape : (List.range (ViewFix.dimension v)).mapM (ViewFix.shapeAt v) = some (restrict gm.numLabels (t.vars.filter (isFree fix))) := by
    rw [mapM_eq_some_map (h := fun i => (restrict gm.numLabels (t.vars.filter (isFree fix))).getD i 0)]
    · congr 1
      apply List.ext_getElem?
      intro i
      rw [List.getElem?_map]
      by_cases hi : i < ViewFix.dimension v
      · rw [List.getElem?_range hi]
        rw [hdim] at hi
        rw [List.getElem?_eq_getElem hi]
        simp only [Option.map_some, List.getD_eq_getElem?_getD, List.getElem?_eq_getElem hi, Option.getD_some]
      · rw [List.getElem?_eq_none (by simpa using hi), List.getElem?_eq_none (by omega)]
        rfl
    · intro i hi
      have hi' := List.mem_range.mp hi
      rw [ViewFix.shapeAt_spec hv hsorted (by rw [hFs]; exact hrange) i hi', hdrop]
      rw [hdim] at hi'
      rw [List.getElem?_eq_getElem hi', List.getD_eq_getElem?_getD, List.getElem?_eq_getElem hi', Option.getD_some]
  rw [hshape]
  simp only
  obtain ⟨g', h1, h2, h3⟩ := addTerm_spec hg hty ⟨restrict gm.numLabels (t.vars.filter (isFree fix)),
      fun labels => (ViewFix.call v (ViewFix.initialBuffer F) labels).map Prod.fst⟩
    ((t.vars.filter (isFree fix)).map r) (hpl.sorted hm.sorted) (hpl.range hm.range) (by
      rw [restrict_image hpl.labels])
  refine ⟨g', _, h1, h2, h3, rfl, ?_⟩
  intro conf x hx hresp hconf
  simp only [Term.value]
  rw [restrict_image hconf]
  have hcall := ViewFix.call_spec hv hsorted (by rw [hFs]; exact hrange) (restrict x t.vars) [] (ViewFix.initialBuffer F)
    (by simp [ViewFix.initialBuffer]) (by rw [hFs]; simp [restrict]) (by
      intro i l hil
      obtain ⟨_, _, w, h4, h5⟩ := fixPairs_mem fix t.vars 0 i l hil
      have := hresp w l (fx_some h5)
      simp only [Nat.sub_zero] at h4
      simp [restrict, h4, this])
  have hd : dropPositions ((fixPairs fix 0 t.vars).map Prod.fst) (restrict x t.vars) = restrict x (t.vars.filter (isFree fix)) :=
    drop_fixPairs fix _ t.vars
  rw [hd, List.append_nil] at hcall
  rw [hcall, hFe]
  have := callFactor_spec hm x [] (by rw [hp.labels]; exact hx.1) (by rw [hp.labels]; exact hx.2) (fun h => absurd h hne)
  rw [List.append_nil] at this
  simp only
  rw [this]
  rfl

theorem addTerm_viewFix {gm : GM V} {p : Problem V} (hp : Represents gm p) {f : FactorRec} {t : Term V} (hm : FactorMatches gm f t)
    {fix : List (Option Nat)} (hfix : fix.length = gm.numLabels.length)
    {r : Nat → Nat} {g : GM (Option V)} {q : Problem (Option V)} (hg : Represents g q) (hty : 0 < g.functions.length)
    (hpl : Placed gm.numLabels fix r g.numLabels t.vars) (hne : t.vars ≠ []) :
    ∃ g' u, addTerm g 0 (viewFixFunction gm f (fixPairs fix 0 t.vars)) ((t.vars.filter (isFree fix)).map r) = some g' ∧
      Represents g' ⟨q.numLabels, q.terms ++ [u]⟩ ∧ g'.functions.length = g.functions.length ∧ Mirrors p fix r t u :=
  addTerm_viewFix' hp hm hfix hg hty hpl hne

end Manipulator
end OpenGM
