import Verif.Model.Mode
import Verif.Lemmas.ModeGraph
import Verif.Lemmas.FactorBest
import Verif.Lemmas.FactorBinary
import Verif.Lemmas.Odometer
/-
The labels that `constrainedOptimum` reads off marginals.
-/
namespace OpenGM.Mode
open Spec FactorOps Marray Walkers
variable {V : Type}

/-! ### Orders -/

theorem keeps_iff {o : Operation V} {better : V → V → Bool} {P : V → Prop} (hL : OrderedValues o better P) {r a b : V} (hr : P r) (ha : P a) (hb : P b) :
    better (o.op r a) (o.op r b) = better a b := by
  cases h : better a b with
  | true => exact hL.keeps hr ha hb h
  | false =>
    cases h2 : better b a with
    | true =>
      have h3 := hL.keeps hr hb ha h2
      cases h4 : better (o.op r a) (o.op r b) with
      | false => rfl
      | true => have := hL.order.trans _ _ _ h3 h4; rw [hL.order.irrefl] at this; cases this
    | false => rw [hL.total a b h h2]; exact hL.order.irrefl _

/-! ### Minima -/

theorem accumulate_min {α : Type} {lt : V → V → Bool} (ho : StrictOrder lt) (htot : ∀ a b, lt a b = false → lt b a = false → a = b) {neutral : V}
    (hneutral : ∀ v, lt neutral v = false) (val : α → V) {l : List α} (hne : l ≠ []) :
    (∃ a ∈ l, accumulate (minOp lt) neutral (l.map val) = val a) ∧ ∀ a ∈ l, lt (val a) (accumulate (minOp lt) neutral (l.map val)) = false := by
  obtain ⟨a, l, rfl⟩ := List.exists_cons_of_ne_nil hne
  have e : accumulate (minOp lt) neutral ((a :: l).map val) = l.foldl (fun acc s => minOp lt (val s) acc) (val a) := by
    unfold accumulate
    rw [List.map_cons, List.foldl_cons, List.foldl_map]
    have : minOp lt (val a) neutral = val a := by simp [minOp, hneutral]
    rw [this]
  obtain ⟨t, h1, h2, h3, h4⟩ := minFold_spec ho htot val l (val a) a rfl
  have h5 := minFold_fst lt val l (val a) a
  rw [h2] at h5
  rw [e, ← h5]
  refine ⟨⟨t, ?_, rfl⟩, fun b hb => ?_⟩
  · rcases h1 with h1 | h1
    · simp [h1]
    · exact List.mem_cons_of_mem _ h1
  · rcases List.mem_cons.mp hb with rfl | hb
    · exact h3
    · exact h4 b hb

theorem labeling_inShape {p : Problem V} {x : List Nat} : p.Labeling x ↔ InShape p.numLabels x := by
  unfold Problem.Labeling
  have : ∀ (nl x : List Nat), (x.length = nl.length ∧ ∀ v l n : Nat, x[v]? = some l → nl[v]? = some n → l < n) ↔ InShape nl x := by
    intro nl
    induction nl with
    | nil => intro x; cases x <;> simp [InShape]
    | cons n nl ih =>
      intro x
      cases x with
      | nil => simp [InShape]
      | cons a x =>
        simp only [InShape, ← ih x, List.length_cons, Nat.add_right_cancel_iff]
        constructor
        · rintro ⟨h1, h2⟩
          exact ⟨h2 0 a n rfl rfl, h1, fun v l k e1 e2 => h2 (v + 1) l k e1 e2⟩
        · rintro ⟨h1, h2, h3⟩
          refine ⟨h2, fun v l k e1 e2 => ?_⟩
          cases v with
          | zero => simp at e1 e2; omega
          | succ v => exact h3 v l k e1 e2
  exact this _ _

/-- The marginal with minimum as accumulation: the best objective of the labelings with these labels. -/
theorem marginal_best {p : Problem V} {o : Operation V} {lt : V → V → Bool} (ho : StrictOrder lt) (htot : ∀ a b, lt a b = false → lt b a = false → a = b) {neutral : V}
    (hneutral : ∀ v, lt neutral v = false) {vs t : List Nat} (hex : ∃ x, p.Labeling x ∧ restrict x vs = t) :
    (∃ x, p.Labeling x ∧ restrict x vs = t ∧ p.marginal o (minOp lt) neutral vs t = p.energy o x) ∧
    ∀ x, p.Labeling x → restrict x vs = t → lt (p.energy o x) (p.marginal o (minOp lt) neutral vs t) = false := by
  have hm : ∀ x, x ∈ (allTuples p.numLabels).filter (fun x => decide (restrict x vs = t)) ↔ p.Labeling x ∧ restrict x vs = t := by
    intro x
    rw [List.mem_filter, mem_allTuples, labeling_inShape]
    simp
  obtain ⟨x, hx⟩ := hex
  obtain ⟨⟨a, ha, h1⟩, h2⟩ := accumulate_min ho htot hneutral (p.energy o) (l := (allTuples p.numLabels).filter (fun x => decide (restrict x vs = t)))
    (List.ne_nil_of_mem ((hm x).mpr hx))
  exact ⟨⟨a, ((hm a).mp ha).1, ((hm a).mp ha).2, h1⟩, fun x h3 h4 => h2 x ((hm x).mpr ⟨h3, h4⟩)⟩

/-! ### Tables -/

/-- `out` lists values of `P` that are the marginals of the objective up to a common value. -/
def Exact (o : Operation V) (better : V → V → Bool) (neutral : V) (P : V → Prop) (p : Problem V) (vs : List Nat) (ts : List (List Nat)) (out : List V) : Prop :=
  (∀ b ∈ out, P b) ∧ ∃ c, P c ∧ p.MarginalsOver o (minOp better) neutral vs ts c out

theorem lookup_zip {α β : Type} [BEq α] [LawfulBEq α] : ∀ {ts : List α} {out : List β}, ts.Nodup → ∀ {k : Nat} {t : α} {b : β}, ts[k]? = some t → out[k]? = some b →
    (ts.zip out).lookup t = some b
  | [], _, _, k, t, b, h, _ => by simp at h
  | _ :: _, [], _, k, t, b, _, h => by simp at h
  | a :: ts, c :: out, hnd, k, t, b, h1, h2 => by
    rw [List.zip_cons_cons, List.lookup_cons]
    cases k with
    | zero => simp at h1 h2; simp [h1, h2]
    | succ k =>
      simp only [List.getElem?_cons_succ] at h1 h2
      have : t ≠ a := by
        rintro rfl
        exact (List.nodup_cons.mp hnd).1 (List.mem_of_getElem? h1)
      rw [show (t == a) = false by simpa using this]
      exact lookup_zip (List.nodup_cons.mp hnd).2 h1 h2

/-- The entry of `out` at `t`. -/
def entry (zero : V) (shape : List Nat) (out : List V) (t : List Nat) : V := (((allTuples shape).zip out).lookup t).getD zero

section
variable {zero : V} {shape : List Nat} {out : List V} (hlen : out.length = (allTuples shape).length)
include hlen

theorem entry_spec {t : List Nat} (ht : InShape shape t) : ∃ k : Nat, (allTuples shape)[k]? = some t ∧ out[k]? = some (entry zero shape out t) ∧
    ((allTuples shape).zip out).lookup t = some (entry zero shape out t) := by
  obtain ⟨k, hk⟩ := List.mem_iff_getElem?.mp ((mem_allTuples shape t).mpr ht)
  have hk' : k < out.length := by rw [hlen]; exact (List.getElem?_eq_some_iff.mp hk).1
  have hl := lookup_zip (nodup_allTuples shape) hk (List.getElem?_eq_getElem hk')
  refine ⟨k, hk, ?_, ?_⟩
  · rw [List.getElem?_eq_getElem hk', entry, hl]; rfl
  · rw [entry, hl]; rfl

theorem tableOf_hasValue {L : Nat → Nat} {vars : List Nat} (hs : shape = vars.map L) :
    HasValue L vars (tableOf shape out).shape (tableOf shape out).eval (fun x => entry zero shape out (vars.map x)) where
  shape := hs
  value x hx rest := by
    have hl : shape.length = (vars.map x).length := by simp [hs]
    unfold tableOf
    simp only
    rw [hl, List.take_left]
    refine (entry_spec hlen ?_).choose_spec.2.2
    subst hs
    have : ∀ vs : List Nat, (∀ v ∈ vs, x v < L v) → InShape (vs.map L) (vs.map x) := by
      intro vs
      induction vs with
      | nil => intro _; trivial
      | cons v vs ih => intro h; exact ⟨h v List.mem_cons_self, ih (fun w hw => h w (List.mem_cons_of_mem _ hw))⟩
    exact this vars hx

end

/-- Number of labels. -/
def labelsOf (nl : List Nat) (v : Nat) : Nat := nl.getD v 0

theorem mapM_labels {nl : List Nat} : ∀ {vars : List Nat}, (∀ v ∈ vars, v < nl.length) → vars.mapM (fun v => nl[v]?) = some (vars.map (labelsOf nl))
  | [], _ => rfl
  | v :: vars, h => by
    have hv := h v List.mem_cons_self
    rw [List.mapM_cons, List.getElem?_eq_getElem hv, mapM_labels (fun w hw => h w (List.mem_cons_of_mem _ hw))]
    simp [labelsOf, List.getD, hv]

theorem outFactor_spec {q : Ops V} {gm : GM V} {vars : List Nat} {out : List V} (hr : ∀ v ∈ vars, v < gm.numLabels.length) (hpos : ∀ n ∈ gm.numLabels, 0 < n) (hnd : vars.Nodup)
    (hlen : out.length = (allTuples (vars.map (labelsOf gm.numLabels))).length) :
    ∃ F, outFactor q gm vars out = some F ∧ F.vars = vars ∧ F.fn.Ok (vars.map (labelsOf gm.numLabels)) defaultOrder ∧
      HasValue (labelsOf gm.numLabels) vars F.fn.geometry.shape F.fn.get (fun x => entry q.zero (vars.map (labelsOf gm.numLabels)) out (vars.map x)) := by
  unfold outFactor
  rw [mapM_labels hr]
  simp only
  refine assignFactor_spec q.zero (tableOf_hasValue hlen rfl) hnd ?_
  intro v hv
  refine hpos _ ?_
  have := hr v hv
  simp only [labelsOf, List.getD, List.getElem?_eq_getElem this, Option.getD_some]
  exact List.getElem_mem _

/-! ### The best label of a table -/

theorem bestLabel_spec {q : Ops V} {P : V → Prop} (hL : OrderedValues q.o q.bop P) (hbeats : ∀ a, P a → q.bop a q.accNeutral = true) {L : Nat → Nat} {w : Nat} {t : IFactor V}
    {f : (Nat → Nat) → V} (hv : HasValue L [w] t.fn.geometry.shape t.fn.get f) (hw : 0 < L w) (hP : ∀ x, x w < L w → P (f x)) :
    ∃ l, bestLabel q t = some l ∧ l < L w ∧ ∀ x y, x w = l → y w < L w → q.bop (f y) (f x) = false := by
  obtain ⟨s, m, h1, h2, h3, h4⟩ := accumulateAllState_min hL.order hL.total (neutral := q.accNeutral) (a := ofArr t.fn) ⟨hv.shape, hv.value⟩ (by simp)
    (by intro v hv; rw [List.mem_singleton.mp hv]; exact hw) (fun x hx => hbeats _ (hP x (hx w (by simp))))
  rcases s with _ | ⟨l, _ | ⟨l', s⟩⟩ <;> simp [InShape] at h2
  refine ⟨l, by unfold bestLabel; rw [h1]; rfl, h2, fun x y hx hy => ?_⟩
  rw [h3 x (by simp [hx])]
  exact h4 y (by intro v hv; rw [List.mem_singleton.mp hv]; exact hy)

/-! ### Known and unknown variables -/

/-- `conf` as a function. -/
def confAt (conf : List (Option Nat)) (v : Nat) : Option Nat := conf.getD v none

theorem confAt_get {conf : List (Option Nat)} {v : Nat} (h : v < conf.length) : conf[v]? = some (confAt conf v) := by simp [confAt, List.getD, h]

theorem confAt_set {conf : List (Option Nat)} {w l : Nat} (h : w < conf.length) : confAt (conf.set w (some l)) = put (confAt conf) w l := by
  funext v
  unfold confAt put
  by_cases e : v = w
  · subst e; simp [List.getD, h]
  · simp [List.getD, e, Ne.symm e]

/-- Is set. -/
def isSet (conf : List (Option Nat)) (v : Nat) : Bool := (confAt conf v).isSome

/-- The label. -/
def labelAt (conf : List (Option Nat)) (v : Nat) : Nat := (confAt conf v).getD 0

theorem firstUnset_spec {conf : List (Option Nat)} : ∀ {vs : List Nat}, (∀ v ∈ vs, v < conf.length) →
    ∃ q, firstUnset conf vs = some q ∧ (q = none → ∀ v ∈ vs, confAt conf v ≠ none) ∧ ∀ w, q = some w → w ∈ vs ∧ confAt conf w = none
  | [], _ => ⟨none, rfl, by simp, by simp⟩
  | v :: vs, h => by
    have hv := confAt_get (h v List.mem_cons_self)
    unfold firstUnset
    rw [hv]
    cases hc : confAt conf v with
    | none => exact ⟨some v, rfl, by simp, by simp [hc]⟩
    | some l =>
      obtain ⟨q, h1, h2, h3⟩ := firstUnset_spec (vs := vs) (fun w hw => h w (List.mem_cons_of_mem _ hw))
      refine ⟨q, h1, ?_, fun w hw => ⟨List.mem_cons_of_mem _ (h3 w hw).1, (h3 w hw).2⟩⟩
      intro hq w hw
      rcases List.mem_cons.mp hw with rfl | hw
      · rw [hc]; simp
      · exact h2 hq w hw

theorem splitKnown_spec {conf : List (Option Nat)} {var2 : Nat} : ∀ {vs : List Nat}, (∀ v ∈ vs, v < conf.length) →
    splitKnown conf var2 vs = some ((vs.filter (fun v => decide (v ≠ var2) && isSet conf v)).map (fun v => (v, labelAt conf v)),
      vs.filter (fun v => decide (v ≠ var2) && !isSet conf v))
  | [], _ => rfl
  | v :: vs, h => by
    have hv := confAt_get (h v List.mem_cons_self)
    unfold splitKnown
    rw [splitKnown_spec (vs := vs) (fun w hw => h w (List.mem_cons_of_mem _ hw))]
    simp only
    by_cases e : v = var2
    · rw [if_neg (by simpa using e)]
      simp [e]
    · rw [if_pos e, hv]
      cases hc : confAt conf v with
      | none => simp [e, isSet, hc]
      | some l => simp [e, isSet, hc, labelAt]

/-! ### The label given the labels that are set -/

theorem conditionLoop_spec {q : Ops V} {m : Base V} {conf : List (Option Nat)} {w f : Nat} {t : IFactor V} : ∀ {fs : List Nat}, fs.Nodup → f ∈ fs →
    conditionLoop q m conf w f fs t = condition q m conf w f t
  | [], _, h => by simp at h
  | g :: fs, hnd, h => by
    have hskip : ∀ {gs : List Nat} {t : IFactor V}, f ∉ gs → conditionLoop q m conf w f gs t = some t := by
      intro gs
      induction gs with
      | nil => intro t _; rfl
      | cons g gs ih =>
        intro t h
        simp only [List.mem_cons, not_or] at h
        unfold conditionLoop
        rw [if_pos (Ne.symm h.1)]
        exact ih h.2
    unfold conditionLoop
    by_cases e : g = f
    · subst e
      rw [if_neg (by simp)]
      have := (List.nodup_cons.mp hnd).1
      cases hc : condition q m conf w g t with
      | none => rfl
      | some t' => exact hskip this
    · rw [if_pos e]
      rcases List.mem_cons.mp h with h | h
      · exact absurd h.symm e
      · exact conditionLoop_spec (List.nodup_cons.mp hnd).2 h

theorem eq_singleton_of_sorted {l : List Nat} {w : Nat} (hs : StrictlySorted l) (h : ∀ v, v ∈ l ↔ v = w) : l = [w] := by
  have hnd : l.Nodup := nodup_of_sorted hs
  have : l.Perm [w] := (List.perm_ext_iff_of_nodup hnd (by simp)).mpr (by simpa using h)
  exact List.perm_singleton.mp this

/-- The labeling that has the labels set so far, and else the labels of `x`. -/
def fill (conf : List (Option Nat)) (idx : List Nat) (x : Nat → Nat) (v : Nat) : Nat := if v ∈ idx then labelAt conf v else x v

/-- `chooseLabel`: an entry of the table of the factor that is best among those with the labels that are set. -/
theorem chooseLabel_spec {q : Ops V} {P : V → Prop} (hL : OrderedValues q.o q.bop P) (hneutral : ∀ v, q.bop q.accNeutral v = false) (hbeats : ∀ a, P a → q.bop a q.accNeutral = true)
    (hone : P q.one) {m : Base V} {conf : List (Option Nat)} {w f : Nat} {rec : FactorRec} {fs : List Nat} {out : List V} {scope : List Nat} (hadj : m.gm.adj[w]? = some fs) (hnd : fs.Nodup)
    (hf : f ∈ fs) (hrec : m.gm.factors[f]? = some rec) (hsc : m.gm.scope rec = scope) (hsort : StrictlySorted scope) (hr : ∀ v ∈ scope, v < m.gm.numLabels.length)
    (hpos : ∀ n ∈ m.gm.numLabels, 0 < n) (hcl : conf.length = m.gm.numLabels.length) (hw : w ∈ scope) (hout : m.factorMarginal f = some out)
    (hlen : out.length = (allTuples (scope.map (labelsOf m.gm.numLabels))).length) (hP : ∀ b ∈ out, P b)
    (hconf : ∀ v l, v ∈ scope → confAt conf v = some l → l < labelsOf m.gm.numLabels v) (hunset : confAt conf w = none) :
    ∃ z, chooseLabel q m conf w f = some (z w) ∧ Labels (labelsOf m.gm.numLabels) scope z ∧ (∀ v ∈ scope, ∀ l, confAt conf v = some l → z v = l) ∧
      ∀ x, Labels (labelsOf m.gm.numLabels) scope x → (∀ v ∈ scope, ∀ l, confAt conf v = some l → x v = l) →
        q.bop (entry q.zero (scope.map (labelsOf m.gm.numLabels)) out (scope.map x)) (entry q.zero (scope.map (labelsOf m.gm.numLabels)) out (scope.map z)) = false := by
  have hsn := nodup_of_sorted hsort
  have hposL : ∀ v ∈ scope, 0 < labelsOf m.gm.numLabels v := by
    intro v hv
    refine hpos _ ?_
    have := hr v hv
    simp only [labelsOf, List.getD, List.getElem?_eq_getElem this, Option.getD_some]
    exact List.getElem_mem _
  generalize hLd : labelsOf m.gm.numLabels = L at *
  generalize hval : entry q.zero (scope.map L) out = val at *
  have hvalP : ∀ x, Labels L scope x → P (val (scope.map x)) := by
    intro x hx
    have hin : InShape (scope.map L) (scope.map x) := by
      have : ∀ vs : List Nat, (∀ v ∈ vs, x v < L v) → InShape (vs.map L) (vs.map x) := by
        intro vs
        induction vs with
        | nil => intro _; trivial
        | cons v vs ih => intro h; exact ⟨h v List.mem_cons_self, ih (fun w hw => h w (List.mem_cons_of_mem _ hw))⟩
      exact this scope hx
    obtain ⟨k, _, h2, _⟩ := entry_spec (zero := q.zero) hlen hin
    rw [hval] at h2
    exact hP _ (List.mem_of_getElem? h2)
  -- the factor
  obtain ⟨F, F1, F2, F3, F4⟩ := outFactor_spec (q := q) (gm := m.gm) (out := out) hr hpos hsn (by rw [hLd]; exact hlen)
  rw [hLd, hval] at F4
  rw [hLd] at F3
  obtain ⟨Fv, Ff⟩ := F
  simp only at F2 F3 F4
  subst F2
  have hsplit := splitKnown_spec (conf := conf) (var2 := w) (vs := Fv) (fun v hv => by rw [hcl]; exact hr v hv)
  generalize hidx : Fv.filter (fun v => decide (v ≠ w) && isSet conf v) = idx at hsplit
  generalize hunk : Fv.filter (fun v => decide (v ≠ w) && !isSet conf v) = unk at hsplit
  have hidxS : StrictlySorted idx := by rw [← hidx]; exact hsort.sublist List.filter_sublist
  have hidxM : ∀ v, v ∈ idx ↔ v ∈ Fv ∧ v ≠ w ∧ isSet conf v = true := by intro v; rw [← hidx]; simp
  have hunkM : ∀ v, v ∈ unk ↔ v ∈ Fv ∧ v ≠ w ∧ isSet conf v = false := by intro v; rw [← hunk]; simp
  -- fixVariables
  obtain ⟨G, G1, G2, G3, G4⟩ := fixVariables_spec q.zero (F := ⟨Fv, Ff⟩) F3 F4 hsort hposL (idx := idx) (labels := idx.map (labelAt conf)) hidxS (by simp) (by
    intro k v l e1 e2 hv
    rw [List.getElem?_map, e1] at e2
    simp only [Option.map_some, Option.some.injEq] at e2
    have := (hidxM v).mp (List.mem_of_getElem? e1)
    obtain ⟨c, hc⟩ := Option.isSome_iff_exists.mp this.2.2
    rw [← e2, labelAt, hc]
    exact hconf v c hv hc)
  obtain ⟨Gv, Gf⟩ := G
  simp only at G1 G2 G3 G4
  have hGS : StrictlySorted Gv := by rw [G2]; exact hsort.sublist List.filter_sublist
  have hGM : ∀ v, v ∈ Gv ↔ v ∈ Fv ∧ v ∉ idx := by intro v; rw [G2]; simp
  have hGpos : ∀ v ∈ Gv, 0 < L v := fun v hv => hposL v ((hGM v).mp hv).1
  have hwG : w ∈ Gv := (hGM w).mpr ⟨hw, fun h => ((hidxM w).mp h).2.1 rfl⟩
  have hGsub : ∀ v, v ∈ Gv → v = w ∨ v ∈ unk := by
    intro v hv
    obtain ⟨h1, h2⟩ := (hGM v).mp hv
    by_cases e : v = w
    · exact Or.inl e
    · refine Or.inr ((hunkM v).mpr ⟨h1, e, ?_⟩)
      cases hs : isSet conf v with
      | false => rfl
      | true => exact absurd ((hidxM v).mpr ⟨h1, e, hs⟩) h2
  have hfill : ∀ x, (fun x => val (Fv.map (override x idx (idx.map (labelAt conf))))) x = val (Fv.map (fill conf idx x)) := by
    intro x
    simp only
    congr 1
    apply List.map_congr_left
    intro v _
    rw [override_map]
    rfl
  have hfillL : ∀ x, (∀ v ∈ Gv, x v < L v) → Labels L Fv (fill conf idx x) := by
    intro x hx v hv
    unfold fill
    split
    · rename_i hvi
      obtain ⟨c, hc⟩ := Option.isSome_iff_exists.mp ((hidxM v).mp hvi).2.2
      rw [labelAt, hc]
      exact hconf v c hv hc
    · rename_i hvi
      exact hx v ((hGM v).mpr ⟨hv, hvi⟩)
  have hfillC : ∀ x, ∀ v ∈ Fv, ∀ l, confAt conf v = some l → fill conf idx x v = l := by
    intro x v hv l hc
    have hvw : v ≠ w := by rintro rfl; rw [hunset] at hc; cases hc
    unfold fill
    rw [if_pos ((hidxM v).mpr ⟨hv, hvw, by simp [isSet, hc]⟩)]
    simp [labelAt, hc]
  -- what the accumulation gives
  have hacc : ∃ H : IFactor V, ∃ g : (Nat → Nat) → V,
      (if unk.length > 0 then (accumulateInplace q.zero (minOp q.bop) q.accNeutral Gf Gv unk).map (fun e => (⟨e.2, e.1⟩ : IFactor V)) else some ⟨Gv, Gf⟩) = some H ∧
      H.vars = [w] ∧ HasValue L [w] H.fn.geometry.shape H.fn.get g ∧
      (∀ x, x w < L w → (∃ z, Labels L Gv z ∧ z w = x w ∧ g x = val (Fv.map (fill conf idx z)))) ∧
      (∀ z, Labels L Gv z → q.bop (val (Fv.map (fill conf idx z))) (g z) = false) := by
    have hrest : Gv.filter (fun v => !unk.contains v) = [w] := by
      refine eq_singleton_of_sorted (hGS.sublist List.filter_sublist) fun v => ?_
      simp only [List.mem_filter, Bool.not_eq_true', List.contains_eq_mem, decide_eq_false_iff_not]
      constructor
      · rintro ⟨h1, h2⟩
        rcases hGsub v h1 with h | h
        · exact h
        · exact absurd h h2
      · rintro rfl
        exact ⟨hwG, fun h => ((hunkM v).mp h).2.1 rfl⟩
    by_cases hu : unk.length > 0
    · rw [if_pos hu]
      obtain ⟨c, A1, A2, A3⟩ := accumulateInplace_spec q.zero (minOp q.bop) q.accNeutral (fun v => by simp [minOp, hneutral]) unk G3 G4 (nodup_of_sorted hGS) hGpos
        (List.ne_nil_of_mem hwG)
      rw [A1, hrest] at *
      have hun : Gv.filter (fun v => unk.contains v) = unk := by
        have s1 : StrictlySorted (Gv.filter (fun v => unk.contains v)) := hGS.sublist List.filter_sublist
        have s2 : StrictlySorted unk := by rw [← hunk]; exact hsort.sublist List.filter_sublist
        refine List.Perm.eq_of_pairwise (le := (· < ·)) ?_ s1 s2 ((List.perm_ext_iff_of_nodup (nodup_of_sorted s1) (nodup_of_sorted s2)).mpr fun v => ?_)
        · intro a b _ _ h1 h2; omega
        · simp only [List.mem_filter, List.contains_eq_mem, decide_eq_true_eq]
          refine ⟨fun h => h.2, fun h => ⟨(hGM v).mpr ⟨((hunkM v).mp h).1, fun hi => ?_⟩, h⟩⟩
          have h1 := ((hidxM v).mp hi).2.2
          rw [((hunkM v).mp h).2.2] at h1
          cases h1
      rw [hun] at A3
      have hunkpos : ∀ v ∈ unk, 0 < L v := fun v hv => hposL v ((hunkM v).mp hv).1
      have hunkG : ∀ v ∈ unk, v ∈ Gv := fun v hv => by rw [← hun] at hv; exact List.mem_of_mem_filter hv
      have hunkn : unk.Nodup := by rw [← hunk]; exact hsn.filter _
      refine ⟨⟨[w], c⟩, _, rfl, rfl, A3, ?_, ?_⟩
      · intro x hx
        obtain ⟨⟨s, s1, s2⟩, _⟩ := marginal_min hL.order hL.total hneutral hunkpos (fun x => val (Fv.map (override x idx (idx.map (labelAt conf))))) x
        refine ⟨override x unk s, ?_, ?_, ?_⟩
        · refine labels_override hunkn s1 ?_
          intro v hv hvu
          rcases hGsub v hv with rfl | h
          · exact hx
          · exact absurd h hvu
        · have hwu : w ∉ unk := fun h => ((hunkM w).mp h).2.1 rfl
          have := (labelingOf_spec hunkn s1).1
          rw [← this, override_map, if_neg hwu]
        · rw [s2, ← hfill]
      · intro z hz
        obtain ⟨_, hmin⟩ := marginal_min hL.order hL.total hneutral hunkpos (fun x => val (Fv.map (override x idx (idx.map (labelAt conf))))) z
        have hin : InShape (unk.map L) (unk.map z) := by
          have : ∀ vs : List Nat, (∀ v ∈ vs, z v < L v) → InShape (vs.map L) (vs.map z) := by
            intro vs
            induction vs with
            | nil => intro _; trivial
            | cons v vs ih => intro h; exact ⟨h v List.mem_cons_self, ih (fun w hw => h w (List.mem_cons_of_mem _ hw))⟩
          exact this unk (fun v hv => hz v (hunkG v hv))
        have h1 := hmin (unk.map z) hin
        have h2 : override z unk (unk.map z) = z := by
          funext v
          rw [override_map]
          simp
        rw [h2] at h1
        rw [← hfill]
        exact h1
    · rw [if_neg hu]
      have hu0 : unk = [] := List.length_eq_zero_iff.mp (by omega)
      have hGw : Gv = [w] := by
        refine eq_singleton_of_sorted hGS fun v => ?_
        constructor
        · intro hv
          rcases hGsub v hv with h | h
          · exact h
          · rw [hu0] at h; simp at h
        · rintro rfl; exact hwG
      subst hGw
      refine ⟨⟨[w], Gf⟩, _, rfl, rfl, G4, ?_, ?_⟩
      · intro x hx
        exact ⟨x, by intro v hv; rw [List.mem_singleton.mp hv]; exact hx, rfl, by rw [← hfill]⟩
      · intro z _
        rw [← hfill]
        exact hL.order.irrefl _
  obtain ⟨H, g, H1, H2, H3, H4, H5⟩ := hacc
  obtain ⟨Hv, Hf⟩ := H
  simp only at H2 H3
  subst H2
  -- the combination
  obtain ⟨c, vic, B1, B2, B3, _, B5⟩ := binaryInplace_spec q.zero q.o.op (L := L) (a := Arr.scalar q.one defaultOrder) (b := ofArr Hf) (via := []) (vib := [w]) (f := fun _ => q.one) (g := g)
    (o := defaultOrder) (scalar_ok _ _) (scalar_hasValue L q.one defaultOrder _ (fun _ => rfl)) (ofArr_hasValue H3) (by simp [StrictlySorted]) (by simp [StrictlySorted]) (by simp)
    (by intro v hv; rw [List.mem_singleton.mp hv]; exact hposL w hw) (Or.inr (by simp))
  have hvic : vic = [w] := eq_singleton_of_sorted B2 (by intro v; rw [B3]; simp)
  subst hvic
  have hgP : ∀ x, x w < L w → P (g x) := by
    intro x hx
    obtain ⟨z, z1, _, z3⟩ := H4 x hx
    rw [z3]
    exact hvalP _ (hfillL z z1)
  obtain ⟨l, D1, D2, D3⟩ := bestLabel_spec hL hbeats (t := ⟨[w], c⟩) B5 (hposL w hw) (fun x hx => hL.value_op hone (hgP x hx))
  obtain ⟨z, z1, z2, z3⟩ := H4 (fun _ => l) D2
  have hwidx : w ∉ idx := fun h => ((hidxM w).mp h).2.1 rfl
  refine ⟨fill conf idx z, ?_, hfillL z z1, hfillC z, ?_⟩
  · unfold chooseLabel
    rw [hadj]
    simp only
    rw [conditionLoop_spec hnd hf]
    unfold condition
    rw [hrec, hout]
    simp only
    rw [hsc, F1, hsplit]
    simp only [List.map_map, Function.comp_def, List.map_id']
    rw [show (idx.map fun v => labelAt conf v) = idx.map (labelAt conf) from rfl, G1]
    simp only
    rw [H1]
    simp only
    rw [B1]
    simp only [Option.map_some, Option.bind_some]
    rw [D1]
    unfold fill
    rw [if_neg hwidx, z2]
  · intro x hx hxc
    have hxG : Labels L Gv x := fun v hv => hx v ((hGM v).mp hv).1
    have hxf : Fv.map (fill conf idx x) = Fv.map x := by
      apply List.map_congr_left
      intro v hv
      unfold fill
      split
      · rename_i hvi
        obtain ⟨k, hk⟩ := Option.isSome_iff_exists.mp ((hidxM v).mp hvi).2.2
        rw [labelAt, hk, hxc v hv k hk]; rfl
      · rfl
    have h1 := H5 x hxG
    rw [hxf] at h1
    have h2 := D3 (fun _ => l) x rfl (hx w hw)
    rw [keeps_iff hL hone (hgP _ (hx w hw)) (hgP (fun _ => l) D2)] at h2
    rw [← z3]
    exact not_better_trans hL.order hL.total h1 h2

end OpenGM.Mode
